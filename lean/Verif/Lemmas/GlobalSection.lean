import Verif.Spec.GlobalSection
import Verif.Props.PatchDict
import Verif.Props.Splines
import Verif.Props.BlockCtx
import Verif.Props.FrameParams
import Verif.Props.QuantTables
/-!
# The parts of the global section of a frame, from the theorems about each of them
-/
namespace Jxl.Props
open Jxl.GlobalSection
open Jxl.Stream (Out chk)

theorem gs_patches {h : Header} {m : Dims} {c : Content} {i : Input} (ok : GlobalSection.Ok h m c i) {mem : Nat → List Alias.Entry} (hm : ∀ la, (mem la).length = 2 ^ la) :
    ∃ b, opt h.patches (Patches.writeDict mem i.patches.layers i.patches.plan i.patches.tokens) = some b ∧ ∀ env, Stream.EnvOk env → ∀ old rest, ∃ d,
      readPatches env h m old (b ++ rest) = .ok (d, rest) ∧
      (Patches.drawn d).map (fun p => (p.x, p.y, p.source)) = (if h.patches then (Patches.drawn c.dict).map (fun p => (p.x, p.y, p.source)) else []) ∧
      (h.patches = true → old.blends = [] → Patches.drawn d = (Patches.drawn c.dict).map (Patches.Patch.norm m.nec)) := by
  unfold opt readPatches
  by_cases hp : h.patches = true
  · obtain ⟨o1, o2, o3⟩ := ok.patches hp
    obtain ⟨toks, t1, t2⟩ := C72_round_trip_partial o1 hm o2.sound o2.contexts
    obtain ⟨l, l1, l2⟩ := o2.tokens
    rw [t1] at l1
    cases l1
    obtain ⟨b, b1, b2⟩ := t2 _ l2
    refine ⟨b, by rw [if_pos hp, b1], fun env he old rest => ?_⟩
    obtain ⟨d, u, e1, e2, e3⟩ := b2 env he old rest
    refine ⟨d, ?_, by rw [if_pos hp, e2], fun _ => e3⟩
    rw [if_pos hp, e1]
    show (if _ then Out.bad else Out.ok (d, rest)) = _
    rw [if_neg]
    rintro ⟨k1, k2⟩
    rcases o3 with o3 | o3
    · exact k1 o3
    · obtain ⟨u, u1, u2⟩ := List.any_eq_true.mp k2
      simp [o3 u u1] at u2
  · refine ⟨[], by rw [if_neg hp], fun env he old rest => ⟨clear old, by rw [if_neg hp]; rfl, by rw [if_neg hp]; rfl, fun k => absurd k hp⟩⟩

theorem gs_splines {h : Header} {m : Dims} {c : Content} {i : Input} (ok : GlobalSection.Ok h m c i) {mem : Nat → List Alias.Entry} (hm : ∀ la, (mem la).length = 2 ^ la) :
    ∃ b, opt h.splines (Patches.writeDict mem i.splines.layers i.splines.plan i.splines.tokens) = some b ∧ ∀ env, Stream.EnvOk env → ∀ rest, ∃ q,
      readSplines env h m (b ++ rest) = .ok (q, rest) ∧ (h.splines = false → q = none) ∧
      (h.splines = true → ∃ s, q = some s ∧ Splines.allPoints c.size s.starts s.splines = .ok (c.curves.map (·.pts)) ∧
        s.splines.map (fun q => (q.color, q.sigma)) = c.curves.map (fun k => (k.color, k.sigma)) ∧ s.adjust = c.adjust) := by
  unfold opt readSplines
  by_cases hp : h.splines = true
  · obtain ⟨o1, o2, qs, o3, o4⟩ := ok.splines hp
    obtain ⟨qs', toks, t0, t1, t2⟩ := C73_round_trip_partial o1 o2 hm o4.sound o4.contexts
    rw [o3] at t0
    cases t0
    obtain ⟨l, l1, l2⟩ := o4.tokens
    rw [t1] at l1
    cases l1
    obtain ⟨b, b1, b2⟩ := t2 _ l2
    refine ⟨b, by rw [if_pos hp, b1], fun env he rest => ?_⟩
    obtain ⟨s, e1, e2⟩ := b2 env he rest
    refine ⟨some s, ?_, fun k => ?_, fun _ => ⟨s, rfl, e2⟩⟩
    · rw [if_pos hp, e1]; rfl
    · rw [hp] at k; cases k
  · exact ⟨[], by rw [if_neg hp], fun env he rest => ⟨none, by rw [if_neg hp]; rfl, fun _ => rfl, fun k => absurd k hp⟩⟩

theorem gs_noise {h : Header} {m : Dims} {c : Content} {i : Input} (ok : GlobalSection.Ok h m c i) :
    ∃ b, opt h.noise (FrameParams.writeNoise i.noise) = some b ∧ ∀ old rest, ∃ n, GlobalSection.readNoise h old (b ++ rest) = .ok (n, rest) ∧ (h.noise = false → n = old) ∧
      (h.noise = true → n.length = 8 ∧ ∀ (k v w : Nat), i.noise[k]? = some v → n[k]? = some w → FrameParams.Near v w) := by
  unfold opt GlobalSection.readNoise
  by_cases hp : h.noise = true
  · obtain ⟨b, out, b1, _, b2, b3, b4⟩ := C75_noise _ (ok.noise hp)
    refine ⟨b, by rw [if_pos hp, b1], fun old rest => ⟨out, by rw [if_pos hp, b2]; rfl, fun k => ?_, fun _ => ⟨b3, fun k v w hv hw => (b4 k v w hv hw).1⟩⟩⟩
    rw [hp] at k; cases k
  · exact ⟨[], by rw [if_neg hp], fun old rest => ⟨old, by rw [if_neg hp]; rfl, fun _ => rfl, fun k => absurd k hp⟩⟩

theorem gs_info {h : Header} {m : Dims} {c : Content} {i : Input} (ok : GlobalSection.Ok h m c i) {mem : Nat → List Alias.Entry} (hm : ∀ la, (mem la).length = 2 ^ la) :
    ∃ b, opt h.varDct (writeInfo mem i) = some b ∧ ∀ env, Stream.EnvOk env → ∀ rest, readInfo? env h (b ++ rest) = .ok (if h.varDct then some i.info else none, rest) := by
  unfold opt readInfo?
  by_cases hp : h.varDct = true
  · obtain ⟨o1, o2, o3, o4⟩ := ok.info hp
    have o1' := o1
    unfold FrameParams.Quant.Ok at o1'
    obtain ⟨a, a1, a2⟩ := (C75_quantiser i.info.quant ⟨by omega, by omega⟩).1 o1
    obtain ⟨b, b1, b2⟩ := C74_round_trip mem hm i.info.ctx o2 i.ctxLayers i.useMtf i.simple o3
    obtain ⟨f, f1, f2⟩ := C75_correlation i.info.cfl o4
    refine ⟨a ++ (b ++ f), by rw [if_pos hp, writeInfo, a1, b1, f1]; rfl, fun env he rest => ?_⟩
    rw [if_pos hp, if_pos hp, readInfo, List.append_assoc, List.append_assoc, a2]
    show Out.bind (Out.bind (BlockCtx.read env (b ++ (f ++ rest))) _) _ = _
    rw [b2 env he]
    show Out.bind (Out.bind (chk (FrameParams.readCfl (f ++ rest))) _) _ = _
    rw [f2]
    rfl
  · exact ⟨[], by rw [if_neg hp], fun env he rest => by rw [if_neg hp, if_neg hp]; rfl⟩

theorem gs_bind {α β : Type} {x : Out α} {f : α → Out β} {P : α → Prop} {Q : β → Prop} (hx : x = .bad ∨ ∃ a, x = .ok a ∧ P a)
    (hf : ∀ a, P a → f a = .bad ∨ ∃ b, f a = .ok b ∧ Q b) : x.bind f = .bad ∨ ∃ b, x.bind f = .ok b ∧ Q b := by
  rcases hx with rfl | ⟨a, rfl, ha⟩
  · exact .inl rfl
  · exact hf a ha

theorem gs_chk {α : Type} (x : Option α) : chk x = .bad ∨ ∃ a, chk x = .ok a ∧ x = some a := by
  cases x with
  | none => exact .inl rfl
  | some a => exact .inr ⟨a, rfl, rfl⟩

theorem gs_defined {α : Type} {x : Out α} {P : α → Prop} (h : x ≠ .ub ∧ x ≠ .deep ∧ ∀ a, x = .ok a → P a) : x = .bad ∨ ∃ a, x = .ok a ∧ P a := by
  match x, h with
  | .ub, h => exact absurd rfl h.1
  | .deep, h => exact absurd rfl h.2.1
  | .bad, _ => exact .inl rfl
  | .ok a, h => exact .inr ⟨a, rfl, h.2.2 a rfl⟩

theorem gs_blends {env : Stream.Env} (he : Stream.EnvOk env) {frames : Nat → Patches.Frame} {xs ys nec : Nat} {old : Patches.Dict} (ho : ∀ b ∈ old.blends, Patches.BlendOk nec b) {s rest : List Bool}
    {d : Patches.Dict} {u : Bool} (e : Patches.readDict env frames xs ys nec old s = .ok ((d, u), rest)) : ∀ b ∈ d.blends, Patches.BlendOk nec b := by
  have h := Patches.readDict_safe he frames xs ys nec old s
  rw [e] at h
  obtain ⟨c, st, r', h⟩ : ∃ c st r', Patches.decode (TreeStream.contextReader c 0) frames xs ys nec old (.ok st) = some ((d, u), r') := h
  unfold Patches.decode at h
  dsimp only at h
  split at h
  · cases h
  · obtain ⟨a, ha, h⟩ := Option.bind_eq_some_iff.mp h
    injection h with h
    injection h with h h2
    injection h with h h3
    obtain ⟨_, _, a3, _⟩ := Patches.readSources_ok _ _ _ _ _ _ ha
    subst h
    intro b hb
    rcases List.mem_append.mp hb with hb | hb
    · exact ho b hb
    · exact a3 b hb

theorem gs_any {env : Stream.Env} (he : Stream.EnvOk env) (h : Header) (m : Dims) {old : Patches.Dict} (ho : ∀ b ∈ old.blends, Patches.BlendOk m.nec b) (oldNoise : List Nat) (s : List Bool) :
    GlobalSection.read env h m old oldNoise s = .bad ∨ ∃ r, GlobalSection.read env h m old oldNoise s = .ok r ∧ Good h m r.1 ∧ ∀ b ∈ r.1.patches.blends, Patches.BlendOk m.nec b := by
  refine gs_bind (P := fun r => (∀ p ∈ Patches.drawn r.1, p.Ok m.frames m.xs m.ys m.nec) ∧ ∀ b ∈ r.1.blends, Patches.BlendOk m.nec b) ?_ fun ⟨d, s⟩ hd => ?_
  · unfold readPatches
    by_cases hp : h.patches = true
    · rw [if_pos hp]
      have hb := C72_any_bits he m.frames m.xs m.ys m.nec ho s
      refine gs_bind (P := fun r : (Patches.Dict × Bool) × List Bool => (∀ p ∈ Patches.drawn r.1.1, p.Ok m.frames m.xs m.ys m.nec) ∧ ∀ b ∈ r.1.1.blends, Patches.BlendOk m.nec b) (gs_defined (P := fun r : (Patches.Dict × Bool) × List Bool => (∀ p ∈ Patches.drawn r.1.1, p.Ok m.frames m.xs m.ys m.nec) ∧ ∀ b ∈ r.1.1.blends, Patches.BlendOk m.nec b) ⟨hb.1, hb.2.1, fun ⟨⟨d, u⟩, rest⟩ e => ⟨(hb.2.2 d u rest e).1, gs_blends he ho e⟩⟩) fun ⟨⟨d, u⟩, s⟩ hd => ?_
      dsimp only
      split
      · exact .inl rfl
      · exact .inr ⟨_, rfl, hd⟩
    · rw [if_neg hp]
      exact .inr ⟨_, rfl, (fun p hp => nomatch hp), ho⟩
  refine gs_bind (P := fun r => ∀ s, r.1 = some s → s.Ok m.pixels) ?_ fun ⟨q, s⟩ hq => ?_
  · unfold readSplines
    by_cases hp : h.splines = true
    · rw [if_pos hp]
      have hb := C73_any_bits he m.pixels s
      refine gs_bind (P := fun r : Splines.Set × List Bool => r.1.Ok m.pixels) (gs_defined (P := fun r : Splines.Set × List Bool => r.1.Ok m.pixels) ⟨hb.1, hb.2.1, fun ⟨q, rest⟩ e => hb.2.2 q rest e⟩) fun ⟨q, s⟩ hq => .inr ⟨_, rfl, fun t ht => ?_⟩
      cases ht
      exact hq
    · rw [if_neg hp]
      exact .inr ⟨_, rfl, fun t ht => nomatch ht⟩
  refine gs_bind (P := fun _ => True) ?_ fun ⟨n, s⟩ _ => ?_
  · unfold GlobalSection.readNoise
    split
    · rcases gs_chk (FrameParams.readNoise s) with e | ⟨a, e, _⟩
      · exact .inl e
      · exact .inr ⟨a, e, trivial⟩
    · exact .inr ⟨_, rfl, trivial⟩
  refine gs_bind (gs_chk (QuantTables.readDcs s)) fun ⟨dc, s'⟩ hdc => ?_
  have hdc := C76_dc_any_bits _ _ _ hdc
  refine gs_bind (P := fun r => ∀ i, r.1 = some i → i.quant.Ok ∧ BlockCtx.Fits i.ctx ∧ i.cfl.Limits) ?_ fun ⟨i, s⟩ hi => .inr ⟨_, rfl, ⟨hd.1, hq, ⟨hdc.1, fun w hw => ⟨(hdc.2 w hw).1, (hdc.2 w hw).2.1⟩⟩, hi⟩, hd.2⟩
  unfold readInfo?
  by_cases hp : h.varDct = true
  · rw [if_pos hp]
    refine gs_bind (P := fun r => r.1.quant.Ok ∧ BlockCtx.Fits r.1.ctx ∧ r.1.cfl.Limits) ?_ fun ⟨i, s⟩ hi => .inr ⟨_, rfl, fun t ht => ?_⟩
    · refine gs_bind (gs_chk (FrameParams.readQuant s')) fun ⟨q, s⟩ hq => ?_
      have hq := C75_quantiser_any_bits _ _ _ hq
      refine gs_bind (P := fun r : BlockCtx.Ctx × List Bool => BlockCtx.Fits r.1) ?_ fun ⟨c, s⟩ hc => ?_
      · rcases C74_any_bits env he s with e | ⟨c, r, e, e1, _⟩
        · exact .inl e
        · exact .inr ⟨_, e, e1⟩
      refine gs_bind (gs_chk (FrameParams.readCfl s)) fun ⟨f, s⟩ hf => .inr ⟨_, rfl, hq, hc, C75_correlation_any_bits _ _ _ hf⟩
    · cases ht
      exact hi
  · rw [if_neg hp]
    exact .inr ⟨_, rfl, fun t ht => nomatch ht⟩

end Jxl.Props
