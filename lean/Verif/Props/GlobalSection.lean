import Verif.Lemmas.GlobalSection
/-!
# Properties: the global section of a frame
-/
namespace Jxl.Props
open Jxl.GlobalSection
open Jxl.Stream (Out chk)

/-- **C77 (round trip).** The global section of every frame, with any combination of patches, splines, noise and DCT blocks, is written, whatever sound choices are made for its
entropy-coded streams.  From these bits, with any memory contents and whatever earlier frames left, the decoder reads up to exactly the last bit what was written; what the header does not
select is not taken from earlier frames, but for the table of noise.  Patches are blended as written if no blendings are left from earlier frames.

Partial: the modular part of the section is not included; see C72 for blendings left over and C73 for splines that start left of or above the picture. -/
theorem C77_round_trip_partial {h : Header} {m : Dims} {c : Content} {i : Input} (ok : GlobalSection.Ok h m c i) {mem : Nat → List Alias.Entry} (hm : ∀ la, (mem la).length = 2 ^ la) :
    ∃ bits, GlobalSection.write mem h i = some bits ∧ ∀ env, Stream.EnvOk env → ∀ old oldNoise rest, ∃ g,
      GlobalSection.read env h m old oldNoise (bits ++ rest) = .ok (g, rest) ∧ Same h c i oldNoise g ∧
      (h.patches = true → old.blends = [] → Patches.drawn g.patches = (Patches.drawn c.dict).map (Patches.Patch.norm m.nec)) := by
  obtain ⟨p, p1, p2⟩ := gs_patches ok hm
  obtain ⟨q, q1, q2⟩ := gs_splines ok hm
  obtain ⟨n, n1, n2⟩ := gs_noise ok
  obtain ⟨d, d1, _, d2⟩ := C76_dc _ _ _ ok.dc.1 ok.dc.2.1 ok.dc.2.2
  obtain ⟨f, f1, f2⟩ := gs_info ok hm
  refine ⟨p ++ (q ++ (n ++ (d ++ f))), by rw [GlobalSection.write, p1, q1, n1, d1, f1]; rfl, fun env he old oldNoise rest => ?_⟩
  obtain ⟨P, P1, P2, P3⟩ := p2 env he old (q ++ (n ++ (d ++ (f ++ rest))))
  obtain ⟨Q, Q1, Q2, Q3⟩ := q2 env he (n ++ (d ++ (f ++ rest)))
  obtain ⟨N, N1, N2, N3⟩ := n2 oldNoise (d ++ (f ++ rest))
  refine ⟨⟨P, Q, N, [i.dcX, i.dcY, i.dcB], if h.varDct then some i.info else none⟩, ?_, ⟨P2, Q2, Q3, N2, N3, rfl, rfl⟩, P3⟩
  simp only [List.append_assoc]
  rw [GlobalSection.read, P1]
  show Out.bind (readSplines env h m _) _ = _
  rw [Q1]
  show Out.bind (GlobalSection.readNoise h oldNoise _) _ = _
  rw [N1]
  show Out.bind (chk (QuantTables.readDcs _)) _ = _
  rw [d2]
  show Out.bind (readInfo? env h _) _ = _
  rw [f2 env he]
  rfl

/-- **C77 (any bits).** Whatever bits the section has and whatever is in memory, reading it is defined, and it is refused or sets only what can be used: patches that can be drawn, splines
in range, factors and divisors that are not zero, block contexts within their table. -/
theorem C77_any_bits {env : Stream.Env} (he : Stream.EnvOk env) (h : Header) (m : Dims) {old : Patches.Dict} (ho : ∀ b ∈ old.blends, Patches.BlendOk m.nec b) (oldNoise : List Nat) (s : List Bool) :
    GlobalSection.read env h m old oldNoise s = .bad ∨ ∃ r, GlobalSection.read env h m old oldNoise s = .ok r ∧ Good h m r.1 := by
  rcases gs_any he h m ho oldNoise s with e | ⟨r, e, g, _⟩
  · exact .inl e
  · exact .inr ⟨r, e, g⟩

/-- **C77 (any image).** The global sections of any number of frames of an image, with any bits, headers and sizes: reading them one after the other with what the earlier ones left is defined,
and is refused or gives for every frame only what can be used. -/
theorem C77_image_any_bits {env : Stream.Env} (he : Stream.EnvOk env) (nec : Nat) (fs : List (Header × Dims × List Bool)) (hf : ∀ f ∈ fs, f.2.1.nec = nec) (noise : List Nat) :
    readAll env fs Patches.fresh noise = .bad ∨ ∃ gs, readAll env fs Patches.fresh noise = .ok gs ∧ gs.length = fs.length ∧
      ∀ (k : Nat) (f : Header × Dims × List Bool) (g : Global), fs[k]? = some f → gs[k]? = some g → Good f.1 f.2.1 g := by
  have main : ∀ (fs : List (Header × Dims × List Bool)), (∀ f ∈ fs, f.2.1.nec = nec) → ∀ (old : Patches.Dict) (noise : List Nat), (∀ b ∈ old.blends, Patches.BlendOk nec b) →
      readAll env fs old noise = .bad ∨ ∃ gs, readAll env fs old noise = .ok gs ∧ gs.length = fs.length ∧
        ∀ (k : Nat) (f : Header × Dims × List Bool) (g : Global), fs[k]? = some f → gs[k]? = some g → Good f.1 f.2.1 g := by
    intro fs
    induction fs with
    | nil => exact fun _ old noise _ => .inr ⟨[], rfl, rfl, fun k f g hk => nomatch hk⟩
    | cons f fs ih =>
      intro hf old noise ho
      obtain ⟨h, m, s⟩ := f
      have hn : m.nec = nec := hf _ (List.mem_cons_self ..)
      subst hn
      refine gs_bind (gs_any he h m ho noise s) fun ⟨g, r⟩ hg => ?_
      refine gs_bind (ih (fun f hf' => hf f (List.mem_cons_of_mem _ hf')) g.patches g.noise hg.2) fun gs hgs => .inr ⟨g :: gs, rfl, by rw [List.length_cons, List.length_cons, hgs.1], fun k f g' hk hg' => ?_⟩
      cases k with
      | zero =>
        cases hk
        cases hg'
        exact hg.1
      | succ k => exact hgs.2 k f g' hk hg'
  exact main fs hf Patches.fresh noise fun b hb => nomatch hb

/-- **C77 (whole image).** The global sections of any number of frames are written and read one after the other: every frame gets what was written for it, whatever the earlier ones were. -/
theorem C77_image_partial {env : Stream.Env} (he : Stream.EnvOk env) {mem : Nat → List Alias.Entry} (hm : ∀ la, (mem la).length = 2 ^ la) (fs : List (Header × Dims × Content × Input))
    (ok : ∀ f ∈ fs, GlobalSection.Ok f.1 f.2.1 f.2.2.1 f.2.2.2) (old : Patches.Dict) (noise : List Nat) :
    ∃ bs, fs.mapM (fun f => GlobalSection.write mem f.1 f.2.2.2) = some bs ∧ ∃ gs, readAll env (List.zipWith (fun f b => (f.1, f.2.1, b)) fs bs) old noise = .ok gs ∧ gs.length = fs.length ∧
      ∀ (k : Nat) (f : Header × Dims × Content × Input) (g : Global), fs[k]? = some f → gs[k]? = some g → ∃ n, Same f.1 f.2.2.1 f.2.2.2 n g ∧
        (k = 0 → n = noise) ∧ ∀ j g', k = j + 1 → gs[j]? = some g' → n = g'.noise := by
  induction fs generalizing old noise with
  | nil => exact ⟨[], rfl, [], rfl, rfl, fun k f g hk => nomatch hk⟩
  | cons f fs ih =>
    obtain ⟨b, b1, b2⟩ := C77_round_trip_partial (ok f (List.mem_cons_self ..)) hm
    obtain ⟨g, g1, g2, _⟩ := b2 env he old noise []
    rw [List.append_nil] at g1
    obtain ⟨bs, s1, gs, s2, s3, s4⟩ := ih (fun f hf => ok f (List.mem_cons_of_mem _ hf)) g.patches g.noise
    refine ⟨b :: bs, by rw [List.mapM_cons, b1, s1]; rfl, g :: gs, ?_, by rw [List.length_cons, List.length_cons, s3], fun k f' g' hk hg => ?_⟩
    · rw [List.zipWith_cons_cons, readAll, g1]
      show Out.bind (readAll env _ g.patches g.noise) _ = _
      rw [s2]
      rfl
    · cases k with
      | zero =>
        cases hk
        cases hg
        exact ⟨noise, g2, fun _ => rfl, fun j _ hj => nomatch hj⟩
      | succ k =>
        obtain ⟨n, n1, n2, n3⟩ := s4 k f' g' hk hg
        refine ⟨n, n1, fun h => (nomatch h), fun j g'' hj hg'' => ?_⟩
        cases hj
        cases k with
        | zero =>
          cases hg''
          exact n2 rfl
        | succ k => exact n3 k g'' rfl hg''

/-- **C77 (refusal).** A frame with patches whose colours are subsampled is refused if any extra channel is subsampled otherwise, even if its patches use no extra channel: the decoder finds out
whether they do, but does not ask. -/
theorem C77_subsampled_refused {h : Header} {m : Dims} (hp : h.patches = true) (hu : h.upsampling ≠ 1) (he : ∃ u ∈ h.ecUpsampling, u ≠ h.upsampling)
    (env : Stream.Env) (henv : Stream.EnvOk env) {old : Patches.Dict} (ho : ∀ b ∈ old.blends, Patches.BlendOk m.nec b) (oldNoise : List Nat) (s : List Bool) :
    GlobalSection.read env h m old oldNoise s = .bad := by
  have : readPatches env h m old s = .bad := by
    have hb := C72_any_bits henv m.frames m.xs m.ys m.nec ho s
    obtain ⟨u, u1, u2⟩ := he
    have hc : h.upsampling ≠ 1 ∧ h.ecUpsampling.any (· != h.upsampling) = true := ⟨hu, List.any_eq_true.mpr ⟨u, u1, by simpa using u2⟩⟩
    unfold readPatches
    rw [if_pos hp]
    match e : Patches.readDict env m.frames m.xs m.ys m.nec old s with
    | .ub => exact absurd e hb.1
    | .deep => exact absurd e hb.2.1
    | .bad => rfl
    | .ok ((d, b), r) =>
      show (if _ then Out.bad else Out.ok (d, r)) = _
      rw [if_pos hc]
  rw [GlobalSection.read, this]
  rfl

/-! Colours subsampled twice, one extra channel not. -/
example (env : Stream.Env) (henv : Stream.EnvOk env) (s : List Bool) : GlobalSection.read env ⟨true, false, false, true, 2, [1]⟩ ⟨twoSaved, 8, 8, 1, 64⟩ Patches.fresh [] s = .bad :=
  C77_subsampled_refused rfl (by decide) ⟨1, by decide, by decide⟩ env henv (by intro b hb; cases hb) [] s

/-! A frame with everything. -/

def fullHeader : Header := ⟨true, true, true, true, 1, []⟩

def fullDims : Dims := ⟨twoSaved, 8, 8, 0, 64⟩

def fullContent : Content := ⟨secondDict, twoCurves, -2, 64⟩

def fullInput : Input :=
  ⟨⟨[], dictPlan, dictTokens secondDict⟩, ⟨[], splinePlan, (splineValues ⟨Splines.starts twoCurves, -2, twoSplines⟩).map fun v => ⟨false, v.1, v.2⟩⟩,
    noiseTable, 0x39800000, 0x39800000, 0x39800000, ⟨⟨4097, 16⟩, ctxExample, largeFactor⟩, [], false, true⟩

theorem dcExample : QuantTables.DcLimits 0x39800000 :=
  ⟨⟨by decide, 0x2800, by decide, by unfold F16.Spec.finite16; decide, by decide, by decide⟩, by decide, by decide⟩

theorem full_ok : GlobalSection.Ok fullHeader fullDims fullContent fullInput where
  patches _ := ⟨twoDicts_ok.2, ⟨dictPlan_sound, rfl, dictValues secondDict, by decide +kernel, dict_tokenised.2⟩, .inl rfl⟩
  splines _ := ⟨twoCurves_ok, by intro c hc p hp; cases hc; cases hp; decide, twoSplines, rfl, splinePlan_sound, rfl, splineValues ⟨Splines.starts twoCurves, -2, twoSplines⟩, by decide +kernel, two_tokenised⟩
  noise _ := noiseTable_ok
  dc := ⟨dcExample, dcExample, dcExample⟩
  info _ := ⟨by unfold FrameParams.Quant.Ok; decide, ctxExample_fits, .inl (.inr (by decide)), largeFactor_ok⟩

example (env : Stream.Env) (he : Stream.EnvOk env) (mem : Nat → List Alias.Entry) (hm : ∀ la, (mem la).length = 2 ^ la) :
    ∃ bits g, GlobalSection.read env fullHeader fullDims Patches.fresh [] bits = .ok (g, []) ∧ Patches.drawn g.patches = Patches.drawn secondDict ∧ g.dc = [0x39800000, 0x39800000, 0x39800000] := by
  obtain ⟨bits, _, h⟩ := C77_round_trip_partial full_ok hm
  obtain ⟨g, g1, g2, g3⟩ := h env he Patches.fresh [] []
  rw [List.append_nil] at g1
  exact ⟨bits, g, g1, g3 rfl rfl, g2.dc⟩

/-! Three frames: with everything, without anything, with everything again. -/
example (env : Stream.Env) (he : Stream.EnvOk env) (mem : Nat → List Alias.Entry) (hm : ∀ la, (mem la).length = 2 ^ la) :
    ∃ fs gs, readAll env fs Patches.fresh [] = .ok gs ∧ gs.length = 3 := by
  have h0 : GlobalSection.Ok ⟨false, false, false, false, 2, [1]⟩ fullDims fullContent fullInput :=
    ⟨fun h => (nomatch h), fun h => (nomatch h), fun h => (nomatch h), full_ok.dc, fun h => (nomatch h)⟩
  obtain ⟨bs, _, gs, h, hl, _⟩ := C77_image_partial he hm [(fullHeader, fullDims, fullContent, fullInput), (⟨false, false, false, false, 2, [1]⟩, fullDims, fullContent, fullInput),
    (fullHeader, fullDims, fullContent, fullInput)] (by
      intro f hf
      simp only [List.mem_cons, List.not_mem_nil, or_false] at hf
      rcases hf with rfl | rfl | rfl
      · exact full_ok
      · exact h0
      · exact full_ok) Patches.fresh []
  exact ⟨_, gs, h, hl⟩

end Jxl.Props
