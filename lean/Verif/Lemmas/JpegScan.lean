import Verif.Lemmas.JpegReader
/-!
# Scans: segments separated by restart markers
-/
namespace Jxl.Jpeg

theorem WInv.fresh {w : Writer} (hb : w.buf = 0) (hr : w.room = 64) (hk : w.healthy = true) :
    WInv w.out.reverse [] w := by
  refine ⟨by omega, hk, [], [], 0, rfl, rfl, by simp [hr], by simp [stuff], by simp [hb]⟩

theorem emitMarker_out {w w' : Writer} {m : Nat} (h : emitMarker w m = some w') :
    w'.out.reverse = w.out.reverse ++ [255, m] ∧ w'.buf = w.buf ∧ w'.room = w.room ∧ w'.healthy = w.healthy := by
  have ho : (reserve w 2).out = w.out := by unfold reserve; split <;> rfl
  have hbf : (reserve w 2).buf = w.buf := by unfold reserve; split <;> rfl
  have hrm : (reserve w 2).room = w.room := by unfold reserve; split <;> rfl
  have hh : (reserve w 2).healthy = w.healthy := by unfold reserve; split <;> rfl
  unfold emitMarker at h
  simp only at h
  split at h
  · cases h
    refine ⟨?_, hbf, hrm, hh⟩
    show (m :: 255 :: (reserve w 2).out).reverse = _
    rw [ho]; simp
  · cases h

theorem writeSegs_out : ∀ (segs : List (List WOp)) (i : Nat) {w w' : Writer} {p p' : Option (List Nat)},
    w.buf = 0 → w.room = 64 → w.healthy = true → (∀ os ∈ segs, CodesOk (opCodes os)) →
    writeSegs i segs w p = some (some (w', p')) →
    w'.out.reverse = w.out.reverse ++ scanBytes i (withPads (segs.map fun os => codeBits (opCodes os)) p) ∧
      w'.healthy = w.healthy ∧
      ∀ s ∈ withPads (segs.map fun os => codeBits (opCodes os)) p, s.2.length = (8 - s.1.length % 8) % 8 := by
  intro segs
  induction segs with
  | nil =>
    intro i w w' p p' _ _ _ _ h
    cases h
    simp [withPads, scanBytes]
  | cons os rest ih =>
    intro i w w' p p' hb hr hk hok h
    rw [writeSegs] at h
    cases h1 : runOps os w with
    | none => rw [h1] at h; cases h
    | some w1 =>
      rw [h1] at h
      simp only [Option.bind_some] at h
      have a := runOps_inv os (WInv.fresh hb hr hk) (hok os (by simp)) h1
      rw [List.nil_append] at a
      cases h2 : jump w1 p with
      | none => rw [h2] at h; cases h
      | some q =>
        rw [h2] at h
        simp only [Option.bind_some] at h
        cases q with
        | none => cases h
        | some wp =>
          obtain ⟨w2, p2⟩ := wp
          have b := jump_inv a.1 h2
          simp only at h
          by_cases hrest : rest = []
          · rw [if_pos hrest] at h
            cases h
            subst hrest
            refine ⟨by rw [b.1]; simp [withPads, scanBytes], b.2.2.2.1.trans a.2, ?_⟩
            intro s hs
            simp only [List.map_cons, List.map_nil, withPads, List.mem_singleton] at hs
            subst hs; exact b.2.2.2.2.2
          · rw [if_neg hrest] at h
            cases h3 : emitMarker w2 (0xD0 + i % 8) with
            | none => rw [h3] at h; cases h
            | some w3 =>
              rw [h3] at h
              simp only [Option.bind_some] at h
              have c := emitMarker_out h3
              have e := ih (i + 1) (c.2.1.trans b.2.1) (c.2.2.1.trans b.2.2.1)
                (c.2.2.2.trans ((b.2.2.2.1.trans a.2).trans hk))
                (fun o ho => hok o (by simp [ho])) h
              rw [b.2.2.2.2.1] at e
              have hne : withPads (rest.map fun os => codeBits (opCodes os))
                  (padsRest (codeBits (opCodes os)).length p) ≠ [] := by
                cases rest with
                | nil => exact absurd rfl hrest
                | cons r rs => simp [withPads]
              refine ⟨?_, (e.2.1.trans c.2.2.2).trans (b.2.2.2.1.trans a.2), ?_⟩
              · rw [e.1, c.1, b.1]
                simp only [List.map_cons, withPads, scanBytes, if_neg hne, List.append_assoc, List.cons_append,
                  List.nil_append]
              · intro s hs
                simp only [List.map_cons, withPads, List.mem_cons] at hs
                rcases hs with rfl | hs
                · exact b.2.2.2.2.2
                · exact e.2.2 s hs

theorem readSegs_scan (d : List Nat) : ∀ (ss : List (List Bool × List Bool)) (nss : List (List Nat)) (i : Nat)
    (pre : List Nat) (m : Nat) (tail : List Nat), ss ≠ [] → pre ≠ [] → pre.getLast? ≠ some 255 → m ≠ 0 →
    d = pre ++ (scanBytes i ss ++ 255 :: m :: tail) → WidthsFit ss nss →
    (∀ s ∈ ss, s.2.length = (8 - s.1.length % 8) % 8) →
    ∃ rs, readSegs d i nss pre.length = some (some (rs, pre.length + (scanBytes i ss).length)) ∧
      SegsRead ss nss rs := by
  intro ss
  induction ss with
  | nil => intro nss i pre m tail h; exact absurd rfl h
  | cons s ss ih =>
    intro nss i pre m tail _ hpre hlast hm hd hw hpad
    cases nss with
    | nil => exact absurd hw (by simp [WidthsFit])
    | cons ns nss =>
      obtain ⟨hw1, hw2, hw3⟩ := hw
      have hps := hpad s (by simp)
      have hlen8 : (s.1 ++ s.2).length = 8 * ((s.1.length + 7) / 8) := by rw [List.length_append]; omega
      have hbits : bitsMsb (packBytes (s.1 ++ s.2)) = s.1 ++ s.2 := bitsMsb_packBytes _ _ hlen8
      by_cases hss : ss = []
      · subst hss
        cases nss with
        | cons n nss => exact absurd hw3 (by simp [WidthsFit])
        | nil =>
          have hp : Placed d pre (packBytes (s.1 ++ s.2)) := by
            refine ⟨⟨m, tail, hm, ?_⟩, packBytes_lt _, hpre, hlast⟩
            rw [hd]; simp [scanBytes, segment]
          obtain ⟨r0, vs, r, e1, e2, e3, e4, e5, e6⟩ := readSegment hp hbits (by omega) ns hw1 hw2
          refine ⟨[(vs, s.2.map bit01)], ?_, ⟨⟨e3, e4, e5, rfl⟩, trivial⟩⟩
          simp only [readSegs, e1, e2, e6, Option.bind_some, if_true]
          simp [scanBytes, segment, mark]
      · have hp : Placed d pre (packBytes (s.1 ++ s.2)) := by
          refine ⟨⟨0xD0 + i % 8, scanBytes (i + 1) ss ++ 255 :: m :: tail, by omega, ?_⟩, packBytes_lt _, hpre, hlast⟩
          rw [hd]; simp [scanBytes, segment, hss]
        obtain ⟨r0, vs, r, e1, e2, e3, e4, e5, e6⟩ := readSegment hp hbits (by omega) ns hw1 hw2
        have hmk : mark pre (packBytes (s.1 ++ s.2)) = (pre ++ segment s.1 s.2).length := by
          simp [mark, segment]
        have hd2 : d = (pre ++ segment s.1 s.2) ++ ([255, 0xD0 + i % 8] ++ (scanBytes (i + 1) ss ++ 255 :: m :: tail)) := by
          rw [hd]; simp [scanBytes, hss]
        have hd3 : d = (pre ++ segment s.1 s.2 ++ [255, 0xD0 + i % 8]) ++ (scanBytes (i + 1) ss ++ 255 :: m :: tail) := by
          rw [hd2]; simp
        have hrest : restartAt d (mark pre (packBytes (s.1 ++ s.2))) i = some true := by
          have g1 : d[mark pre (packBytes (s.1 ++ s.2))]? = some 255 := by
            rw [hmk, hd2, List.getElem?_append_right (Nat.le_refl _), Nat.sub_self]; rfl
          have g2 : d[mark pre (packBytes (s.1 ++ s.2)) + 1]? = some (0xD0 + i % 8) := by
            rw [hmk, hd2, List.getElem?_append_right (by omega)]
            have : (pre ++ segment s.1 s.2).length + 1 - (pre ++ segment s.1 s.2).length = 1 := by omega
            rw [this]; rfl
          have hl := hp.length
          unfold restartAt
          rw [if_neg (by omega), g1, g2]
          simp
        obtain ⟨rs, f1, f2⟩ := ih nss (i + 1) (pre ++ segment s.1 s.2 ++ [255, 0xD0 + i % 8]) m tail hss (by simp)
          (by simp; omega) hm hd3 hw3 (fun t ht => hpad t (by simp [ht]))
        have hne : nss ≠ [] := by
          intro h; subst h
          cases ss with
          | nil => exact hss rfl
          | cons t ts => exact absurd hw3 (by simp [WidthsFit])
        have hpos : mark pre (packBytes (s.1 ++ s.2)) + 2 =
            (pre ++ segment s.1 s.2 ++ [255, 0xD0 + i % 8]).length := by rw [hmk]; simp; omega
        refine ⟨(vs, s.2.map bit01) :: rs, ?_, ⟨⟨e3, e4, e5, rfl⟩, f2⟩⟩
        simp only [readSegs, e1, e2, e6, Option.bind_some, if_neg hne, hrest, if_true, hpos, f1]
        congr 3
        simp [scanBytes, hss]; omega

end Jxl.Jpeg
