import Verif.Spec.Splines
import Verif.Lemmas.PatchDict
/-!
# Splines come back
-/
namespace Jxl.Splines
open Jxl.MaTree (Reader unpack unpack_pack minInt maxInt)
open Jxl.TreeStream (Feed contextReader)
open Jxl.Patches (feed_split feed_one u32 u32_small stream_feed reader_keeps)
open Jxl.Stream (Out)

theorem within_iff {lim x y : Int} : within lim x y = true ↔ Near lim (x, y) := by
  unfold within Near
  simp only [Bool.not_eq_true', Bool.or_eq_false_iff, decide_eq_false_iff_not]
  omega

theorem unpack_pack32 {v : Int} (h1 : -2 ^ 31 ≤ v) (h2 : v < 2 ^ 31) : unpack (pack v) = v := unpack_pack (by unfold minInt; omega) (by unfold maxInt; omega)

theorem unpack_range (v : Nat) : -2 ^ 31 ≤ unpack v ∧ unpack v < 2 ^ 31 := by
  unfold unpack
  have h1 := BitVec.le_toInt (unpackSigned (BitVec.ofNat 64 v))
  have h2 := BitVec.toInt_lt (x := unpackSigned (BitVec.ofNat 64 v))
  omega

/-! ## Reading what was written -/

theorem steps_back {ρ : Type} {R : Reader ρ} {r' : ρ} : ∀ (l : List (Int × Int)) (r : ρ), (∀ p ∈ l, Near (2 ^ 30) p) →
    Feed R r (l.flatMap fun p => [(4, pack p.1), (4, pack p.2)]) r' → readSteps R l.length r = some (l, r')
  | [], r, _, h => by cases h; rfl
  | p :: l, r, hl, h => by
    have hp := hl p (List.mem_cons_self ..)
    rw [List.flatMap_cons] at h
    obtain ⟨m1, e1, h⟩ := feed_one h
    obtain ⟨m2, e2, h⟩ := feed_one h
    have ih := steps_back l m2 (fun q hq => hl q (List.mem_cons_of_mem _ hq)) h
    have hp' := hp
    unfold Near at hp
    rw [List.length_cons, readSteps]
    rw [e1]
    dsimp only
    rw [e2]
    dsimp only
    rw [unpack_pack32 (by omega) (by omega), unpack_pack32 (by omega) (by omega), if_pos (within_iff.mpr hp'), ih]
    rfl

theorem dct_back {ρ : Type} {R : Reader ρ} {r' : ρ} : ∀ (l : List Int) (r : ρ), (∀ v ∈ l, -2 ^ 31 < v ∧ v < 2 ^ 31) →
    Feed R r (l.map fun v => (5, pack v)) r' → readDct R l.length r = some (l, r')
  | [], r, _, h => by cases h; rfl
  | v :: l, r, hl, h => by
    have hv := hl v (List.mem_cons_self ..)
    obtain ⟨m1, e1, h⟩ := feed_one h
    have ih := dct_back l m1 (fun q hq => hl q (List.mem_cons_of_mem _ hq)) h
    rw [List.length_cons, readDct]
    rw [e1]
    dsimp only
    rw [unpack_pack32 (by omega) (by omega), if_neg (by omega), ih]
    rfl

theorem dcts_back {ρ : Type} {R : Reader ρ} {r' : ρ} : ∀ (ls : List (List Int)) (r : ρ), (∀ l ∈ ls, DctOk l) →
    Feed R r (ls.flatMap fun l => l.map fun v => (5, pack v)) r' → readDcts R ls.length r = some (ls, r')
  | [], r, _, h => by cases h; rfl
  | l :: ls, r, hl, h => by
    obtain ⟨h1, h2⟩ := hl l (List.mem_cons_self ..)
    rw [List.flatMap_cons] at h
    obtain ⟨m, k1, k2⟩ := feed_split _ _ _ _ h
    have e := dct_back l r h2 k1
    rw [h1] at e
    rw [List.length_cons, readDcts, e]
    dsimp only [Option.bind_some]
    rw [dcts_back ls m (fun q hq => hl q (List.mem_cons_of_mem _ hq)) k2]
    rfl

def SplineOk (q : Spline) : Prop := (∀ p ∈ q.steps, Near (2 ^ 30) p) ∧ q.color.length = 3 ∧ (∀ l ∈ q.color, DctOk l) ∧ DctOk q.sigma

theorem spline_back {ρ : Type} {R : Reader ρ} {r r' : ρ} {q : Spline} (hq : SplineOk q) {mx total : Nat} (hm : mx ≤ 2 ^ 20) (ht : total + q.steps.length ≤ mx) (h : Feed R r (splineTokens q) r') :
    readSpline R mx total r = some ((q, total + q.steps.length), r') := by
  obtain ⟨h1, h2, h3, h4⟩ := hq
  unfold splineTokens at h
  obtain ⟨m1, e1, h⟩ := feed_one h
  obtain ⟨m2, k1, h⟩ := feed_split _ _ _ _ h
  obtain ⟨m3, k2, k3⟩ := feed_split _ _ _ _ h
  rw [u32_small (by omega)] at e1
  have a1 := steps_back _ _ h1 k1
  have a2 := dcts_back _ _ h3 k2
  have a3 := dct_back _ _ h4.2 k3
  rw [h2] at a2
  rw [h4.1] at a3
  unfold readSpline
  dsimp only
  rw [e1]
  dsimp only
  rw [if_neg (by omega), if_neg (by omega), a1]
  dsimp only [Option.bind_some]
  rw [a2]
  dsimp only [Option.bind_some]
  rw [a3]
  rfl

theorem splines_back {ρ : Type} {R : Reader ρ} {r' : ρ} {mx : Nat} (hm : mx ≤ 2 ^ 20) : ∀ (l : List Spline) (total : Nat) (r : ρ), (∀ q ∈ l, SplineOk q) →
    total + (l.map fun q => q.steps.length).sum ≤ mx → Feed R r (l.flatMap splineTokens) r' → readSplines R mx l.length total r = some (l, r')
  | [], _, r, _, _, h => by cases h; rfl
  | q :: l, total, r, hl, ht, h => by
    rw [List.flatMap_cons] at h
    rw [List.map_cons, List.sum_cons] at ht
    obtain ⟨m, k1, k2⟩ := feed_split _ _ _ _ h
    rw [List.length_cons, readSplines, spline_back (hl q (List.mem_cons_self ..)) hm (by omega) k1]
    dsimp only [Option.bind_some]
    rw [splines_back hm l _ m (fun q hq => hl q (List.mem_cons_of_mem _ hq)) (by omega) k2]
    rfl

theorem starts_back {ρ : Type} {R : Reader ρ} {r' : ρ} : ∀ (l : List (Int × Int)) (last : Int × Int) (r : ρ), Near (2 ^ 23) last → (∀ p ∈ l, Near (2 ^ 23) p) →
    Feed R r (startTokens (some last) l) r' → readStarts R l.length (some last) r = some (l, r')
  | [], _, r, _, _, h => by cases h; rfl
  | p :: l, last, r, hla, hl, h => by
    have hp := hl p (List.mem_cons_self ..)
    rw [startTokens] at h
    obtain ⟨m1, e1, h⟩ := feed_one h
    obtain ⟨m2, e2, h⟩ := feed_one h
    have ih := starts_back l p m2 hp (fun q hq => hl q (List.mem_cons_of_mem _ hq)) h
    have hp' := hp
    unfold Near at hp hla
    rw [List.length_cons, readStarts]
    rw [e1]
    dsimp only
    rw [e2]
    dsimp only
    have e : startPoint (some last) (pack (p.1 - last.1)) (pack (p.2 - last.2)) = p := by
      unfold startPoint
      dsimp only
      rw [unpack_pack32 (by omega) (by omega), unpack_pack32 (by omega) (by omega), Int.sub_add_cancel, Int.sub_add_cancel]
    rw [e, if_pos (within_iff.mpr hp'), ih]
    rfl

theorem first_back {ρ : Type} {R : Reader ρ} {r r' : ρ} {p : Int × Int} {l : List (Int × Int)} (h0 : 0 ≤ p.1 ∧ 0 ≤ p.2) (hp : Near (2 ^ 23) p) (hl : ∀ p ∈ l, Near (2 ^ 23) p)
    (h : Feed R r (startTokens none (p :: l)) r') : readStarts R (l.length + 1) none r = some (p :: l, r') := by
  rw [startTokens] at h
  obtain ⟨m1, e1, h⟩ := feed_one h
  obtain ⟨m2, e2, h⟩ := feed_one h
  have ih := starts_back l p m2 hp hl h
  have hp' := hp
  unfold Near at hp
  have t1 : ((BitVec.ofInt 32 p.1).toNat : Int) = p.1 := by rw [BitVec.toNat_ofInt]; omega
  have t2 : ((BitVec.ofInt 32 p.2).toNat : Int) = p.2 := by rw [BitVec.toNat_ofInt]; omega
  rw [readStarts]
  rw [e1]
  dsimp only
  rw [e2]
  dsimp only
  have e : startPoint none (BitVec.ofInt 32 p.1).toNat (BitVec.ofInt 32 p.2).toNat = p := by
    unfold startPoint
    dsimp only
    rw [t1, t2]
  rw [e, if_pos (within_iff.mpr hp'), ih]
  rfl

theorem sum_succ : ∀ l : List Spline, (l.map fun q => q.steps.length + 1).sum = l.length + (l.map fun q => q.steps.length).sum
  | [] => rfl
  | q :: l => by
    have := sum_succ l
    simp only [List.map_cons, List.sum_cons, List.length_cons]
    omega

theorem decode_back {ρ : Type} {R : Reader ρ} {r r' : ρ} {pixels : Nat} {s : Set} (h : s.Ok pixels) (h0 : ∀ p, s.starts.head? = some p → 0 ≤ p.1 ∧ 0 ≤ p.2) {t : List (Nat × Nat)}
    (ht : tokens s = some t) (hf : Feed R r t r') : decode R pixels r = some (s, r') := by
  unfold tokens at ht
  rw [if_neg h.some] at ht
  injection ht with ht
  subst ht
  obtain ⟨m1, e1, hf⟩ := feed_one hf
  obtain ⟨m2, k1, hf⟩ := feed_split _ _ _ _ hf
  obtain ⟨m3, e2, k2⟩ := feed_one hf
  have hpos : 0 < s.splines.length := List.length_pos_iff.mpr h.some
  have hc := h.count
  rw [sum_succ] at hc
  rw [u32_small (by omega)] at e1
  have hs := h.starts
  cases hst : s.starts with
  | nil => rw [hst] at hs; simp only [List.length_nil] at hs; omega
  | cons p l =>
    rw [hst] at hs k1
    rw [List.length_cons] at hs
    have a1 := first_back (h0 p (by rw [hst]; rfl)) (h.near p (by rw [hst]; exact List.mem_cons_self ..)) (fun q hq => h.near q (by rw [hst]; exact List.mem_cons_of_mem _ hq)) k1
    have a2 := splines_back (mx := maxPoints pixels) (by unfold maxPoints; omega) s.splines s.splines.length m3
      (fun q hq => ⟨h.steps q hq, (h.dct q hq).1, (h.dct q hq).2.1, (h.dct q hq).2.2⟩) (by unfold maxPoints; omega) k2
    unfold decode
    dsimp only
    rw [e1]
    dsimp only
    rw [if_neg (by unfold maxPoints; omega), show s.splines.length - 1 + 1 = l.length + 1 by omega, a1]
    dsimp only [Option.bind_some]
    rw [e2]
    dsimp only
    rw [hs, a2]
    dsimp only [Option.bind_some]
    rw [unpack_pack32 h.adjust.1 h.adjust.2, ← hst]

/-! ## A first spline that starts left of or above the picture -/

theorem first_refused {ρ : Type} {R : Reader ρ} {r r' : ρ} {p : Int × Int} {l : List (Int × Int)} (h0 : p.1 < 0 ∨ p.2 < 0) (hp : Near (2 ^ 23) p) {n : Nat} {ts : List (Nat × Nat)}
    (h : Feed R r (startTokens none (p :: l) ++ ts) r') : readStarts R (n + 1) none r = none := by
  rw [startTokens] at h
  obtain ⟨m1, e1, h⟩ := feed_one h
  obtain ⟨m2, e2, h⟩ := feed_one h
  unfold Near at hp
  rw [readStarts]
  rw [e1]
  dsimp only
  rw [e2]
  dsimp only
  rw [if_neg]
  intro hw
  have hw := within_iff.mp hw
  unfold Near startPoint at hw
  dsimp only at hw
  rw [BitVec.toNat_ofInt, BitVec.toNat_ofInt] at hw
  omega

theorem decode_refused {ρ : Type} {R : Reader ρ} {r r' : ρ} {pixels : Nat} {s : Set} {p : Int × Int} (hs : s.starts.head? = some p) (hp : Near (2 ^ 23) p) (h0 : p.1 < 0 ∨ p.2 < 0)
    {t : List (Nat × Nat)} (ht : tokens s = some t) (hf : Feed R r t r') : decode R pixels r = none := by
  unfold tokens at ht
  split at ht
  · cases ht
  injection ht with ht
  subst ht
  obtain ⟨m1, e1, hf⟩ := feed_one hf
  cases hst : s.starts with
  | nil => rw [hst] at hs; cases hs
  | cons q l =>
    rw [hst] at hs hf
    injection hs with hs
    subst hs
    unfold decode
    dsimp only
    rw [e1]
    dsimp only
    split
    · rfl
    · rw [first_refused h0 hp hf]
      rfl

/-! ## Control points -/

theorem int_ok {v : Int} (h : -2 ^ 31 ≤ v ∧ v < 2 ^ 31) : int v = .ok v := if_pos h

theorem narrow_ok {v : Int} (h1 : -2 ^ 31 ≤ v) (h2 : v < 2 ^ 31) : narrow v = v := by
  unfold narrow
  rw [BitVec.toInt_ofInt]
  exact Int.bmod_eq_of_le (by omega) (by omega)

theorem abs_ok {v : Int} (h1 : -2 ^ 31 < v) (h2 : v < 2 ^ 31) : absInt v = .ok v.natAbs := int_ok (by omega)

theorem u64_ok {n : Nat} (h : n < 2 ^ 64) : u64 n = n := Nat.mod_eq_of_lt h

theorem ok_bind {α β : Type} (a : α) (f : α → Out β) : (Out.ok a).bind f = f a := rfl

theorem step_back {lim : Nat} (hlim : lim ≤ 2 ^ 42) {q p d : Int × Int} {m : Nat} (hp : Near (2 ^ 23) p) (hd : Near (2 ^ 23) d) (hq : Near (2 ^ 23) q) (hn : Near (2 ^ 23) (q.1 - p.1, q.2 - p.2))
    (hm : m + ((q.1 - p.1).natAbs + (q.2 - p.2).natAbs) ≤ lim) :
    step lim (q.1 - p.1 - d.1, q.2 - p.2 - d.2) p d m = .ok (q, (q.1 - p.1, q.2 - p.2), m + ((q.1 - p.1).natAbs + (q.2 - p.2).natAbs)) := by
  have hn' := within_iff.mpr hn
  have hq' := within_iff.mpr hq
  unfold Near at hp hd hq hn
  dsimp only at hn
  unfold step
  dsimp only
  rw [show d.1 + (q.1 - p.1 - d.1) = q.1 - p.1 by omega, show d.2 + (q.2 - p.2 - d.2) = q.2 - p.2 by omega, narrow_ok (by omega) (by omega), narrow_ok (by omega) (by omega),
    abs_ok (by omega) (by omega), abs_ok (by omega) (by omega), ok_bind, ok_bind, int_ok (by omega), ok_bind]
  have e : u64 (m + (((q.1 - p.1).natAbs : Int) + ((q.2 - p.2).natAbs : Int)).toNat) = m + ((q.1 - p.1).natAbs + (q.2 - p.2).natAbs) := by
    rw [u64_ok (by omega)]
    omega
  rw [e, if_neg (by omega), if_pos hn']
  rw [show p.1 + (q.1 - p.1) = q.1 by omega, show p.2 + (q.2 - p.2) = q.2 by omega, int_ok (by omega), int_ok (by omega), ok_bind, ok_bind, if_pos hq']

theorem walk_back {lim : Nat} (hlim : lim ≤ 2 ^ 42) : ∀ (l : List (Int × Int)) (p d : Int × Int) (m : Nat), Near (2 ^ 23) p → Near (2 ^ 23) d → (∀ q ∈ l, Near (2 ^ 23) q) → Moves (p :: l) →
    m + len (p :: l) ≤ lim → ∃ ss, makeSteps p d l = .ok ss ∧ ss.length = l.length ∧ (∀ s ∈ ss, Near (2 ^ 30) s) ∧ walk lim ss p d m = .ok l := by
  intro l
  induction l with
  | nil => exact fun p d m _ _ _ _ _ => ⟨[], rfl, rfl, (by intro s hs; cases hs), rfl⟩
  | cons q l ih =>
    intro p d m hp hd hl hmv hlen
    obtain ⟨-, hnear, hmv⟩ := hmv
    have hq := hl q (List.mem_cons_self ..)
    rw [len] at hlen
    obtain ⟨ss, e1, e2, e3, e4⟩ := ih q (q.1 - p.1, q.2 - p.2) (m + ((q.1 - p.1).natAbs + (q.2 - p.2).natAbs)) hq hnear (fun x hx => hl x (List.mem_cons_of_mem _ hx)) hmv (by omega)
    have hst := step_back hlim hp hd hq hnear (m := m) (by omega)
    unfold Near at hp hd hq hnear
    dsimp only at hnear
    refine ⟨(q.1 - p.1 - d.1, q.2 - p.2 - d.2) :: ss, ?_, ?_, ?_, ?_⟩
    · rw [makeSteps, int_ok (by omega)]
      dsimp only [Out.bind]
      rw [int_ok (by omega)]
      dsimp only [Out.bind]
      rw [int_ok (by omega)]
      dsimp only [Out.bind]
      rw [int_ok (by omega)]
      dsimp only [Out.bind]
      rw [e1]
    · rw [List.length_cons, List.length_cons, e2]
    · intro s hs
      rcases List.mem_cons.mp hs with rfl | hs
      · unfold Near
        dsimp only
        omega
      · exact e3 s hs
    · rw [walk, hst]
      dsimp only [Out.bind]
      rw [e4]

theorem repeats_not : ∀ l : List (Int × Int), Moves l → repeats l = false
  | [], _ => rfl
  | [_], _ => rfl
  | a :: b :: l, h => by
    rw [repeats, repeats_not (b :: l) h.2.2, decide_eq_false h.1]
    rfl

theorem limit_ok {size : Nat} (h : size ≤ 2 ^ 53) : areaLimit size = min (1024 * size + 2 ^ 32) (2 ^ 42) := by
  unfold areaLimit
  rw [u64_ok (by omega)]

theorem create_back {size : Nat} (hs : size ≤ 2 ^ 53) {c : Curve} (h : c.Ok size) :
    ∃ q, create c = .ok q ∧ SplineOk q ∧ q.steps.length + 1 = c.pts.length ∧ q.color = c.color ∧ q.sigma = c.sigma ∧ ∃ p, c.pts.head? = some p ∧ points size p q.steps = .ok c.pts ∧ repeats c.pts = false := by
  have hr := repeats_not _ h.moves
  cases hp : c.pts with
  | nil => exact absurd hp h.some
  | cons p l =>
    have hnear := h.near
    have hmv := h.moves
    have hsh := h.short
    rw [hp] at hnear hmv hsh hr
    have h0 := hnear p (List.mem_cons_self ..)
    obtain ⟨ss, e1, e2, e3, e4⟩ := walk_back (lim := areaLimit size) (by rw [limit_ok hs]; omega) l p (0, 0) 0 h0 (by unfold Near; decide) (fun q hq => hnear q (List.mem_cons_of_mem _ hq)) hmv
      (by rw [limit_ok hs]; omega)
    refine ⟨⟨ss, c.color, c.sigma⟩, ?_, ⟨e3, h.color.1, h.color.2, h.sigma⟩, ?_, rfl, rfl, p, rfl, ?_, hr⟩
    · unfold create
      rw [hp]
      dsimp only
      rw [e1]
      rfl
    · dsimp only
      rw [e2, List.length_cons]
    · unfold points
      rw [within_iff.mpr h0, if_pos rfl, e4]
      rfl

theorem createAll_back {size : Nat} (hs : size ≤ 2 ^ 53) : ∀ cs : List Curve, (∀ c ∈ cs, c.Ok size) →
    ∃ qs, createAll cs = .ok qs ∧ (∀ q ∈ qs, SplineOk q) ∧ (qs.map fun q => q.steps.length + 1) = (cs.map fun c => c.pts.length) ∧ qs.map (fun q => (q.color, q.sigma)) = cs.map (fun c => (c.color, c.sigma)) ∧
      (starts cs).length = qs.length ∧ (∀ p ∈ starts cs, Near (2 ^ 23) p) ∧ allPoints size (starts cs) qs = .ok (cs.map (·.pts))
  | [], _ => ⟨[], rfl, (by intro q hq; cases hq), rfl, rfl, rfl, (by intro q hq; cases hq), rfl⟩
  | c :: cs, h => by
    have hc := h c (List.mem_cons_self ..)
    obtain ⟨qs, a1, a2, a3, a4, a5, a6, a7⟩ := createAll_back hs cs (fun x hx => h x (List.mem_cons_of_mem _ hx))
    obtain ⟨q, b1, b2, b3, b4, b5, p, b6, b7, b8⟩ := create_back hs hc
    have est : starts (c :: cs) = p :: starts cs := by
      unfold starts
      rw [List.filterMap_cons, b6]
    refine ⟨q :: qs, ?_, ?_, ?_, ?_, ?_, ?_, ?_⟩
    · rw [createAll, b1]
      dsimp only [Out.bind]
      rw [a1]
    · intro x hx
      rcases List.mem_cons.mp hx with rfl | hx
      · exact b2
      · exact a2 x hx
    · rw [List.map_cons, List.map_cons, b3, a3]
    · rw [List.map_cons, List.map_cons, b4, b5, a4]
    · rw [est, List.length_cons, List.length_cons, a5]
    · intro x hx
      rw [est] at hx
      rcases List.mem_cons.mp hx with rfl | hx
      · exact hc.near x (List.mem_of_mem_head? b6)
      · exact a6 x hx
    · rw [est, allPoints, b7]
      dsimp only [Out.bind]
      rw [b8]
      rw [a7]
      rfl

/-! ## Whatever is read -/

theorem readStarts_ok {ρ : Type} {R : Reader ρ} : ∀ (n : Nat) (last : Option (Int × Int)) (r : ρ) (o : List (Int × Int) × ρ), readStarts R n last r = some o →
    o.1.length = n ∧ ∀ p ∈ o.1, Near (2 ^ 23) p
  | 0, _, _, _, h => by cases h; exact ⟨rfl, by intro p hp; cases hp⟩
  | n + 1, last, r, o, h => by
    rw [readStarts] at h
    generalize startPoint last _ _ = p at h
    by_cases hw : within (2 ^ 23) p.1 p.2 = true
    · rw [if_pos hw] at h
      obtain ⟨q, hq, h⟩ := Option.bind_eq_some_iff.mp h
      injection h with h
      subst h
      obtain ⟨i1, i2⟩ := readStarts_ok n _ _ q hq
      refine ⟨by rw [List.length_cons, i1], fun x hx => ?_⟩
      rcases List.mem_cons.mp hx with rfl | hx
      · exact within_iff.mp hw
      · exact i2 x hx
    · rw [if_neg hw] at h
      cases h

theorem readSteps_ok {ρ : Type} {R : Reader ρ} : ∀ (n : Nat) (r : ρ) (o : List (Int × Int) × ρ), readSteps R n r = some o → o.1.length = n ∧ ∀ p ∈ o.1, Near (2 ^ 30) p
  | 0, _, _, h => by cases h; exact ⟨rfl, by intro p hp; cases hp⟩
  | n + 1, r, o, h => by
    rw [readSteps] at h
    split at h
    · rename_i hw
      obtain ⟨q, hq, h⟩ := Option.bind_eq_some_iff.mp h
      injection h with h
      subst h
      obtain ⟨i1, i2⟩ := readSteps_ok n _ q hq
      refine ⟨by rw [List.length_cons, i1], fun x hx => ?_⟩
      rcases List.mem_cons.mp hx with rfl | hx
      · exact within_iff.mp hw
      · exact i2 x hx
    · cases h

theorem readDct_ok {ρ : Type} {R : Reader ρ} : ∀ (n : Nat) (r : ρ) (o : List Int × ρ), readDct R n r = some o → o.1.length = n ∧ ∀ v ∈ o.1, -2 ^ 31 < v ∧ v < 2 ^ 31
  | 0, _, _, h => by cases h; exact ⟨rfl, by intro p hp; cases hp⟩
  | n + 1, r, o, h => by
    rw [readDct] at h
    split at h
    · cases h
    · rename_i hw
      obtain ⟨q, hq, h⟩ := Option.bind_eq_some_iff.mp h
      injection h with h
      subst h
      obtain ⟨i1, i2⟩ := readDct_ok n _ q hq
      refine ⟨by rw [List.length_cons, i1], fun x hx => ?_⟩
      rcases List.mem_cons.mp hx with rfl | hx
      · have := unpack_range (R.read r 5).1
        omega
      · exact i2 x hx

theorem readDcts_ok {ρ : Type} {R : Reader ρ} : ∀ (n : Nat) (r : ρ) (o : List (List Int) × ρ), readDcts R n r = some o → o.1.length = n ∧ ∀ l ∈ o.1, DctOk l
  | 0, _, _, h => by cases h; exact ⟨rfl, by intro p hp; cases hp⟩
  | n + 1, r, o, h => by
    rw [readDcts] at h
    obtain ⟨a, ha, h⟩ := Option.bind_eq_some_iff.mp h
    obtain ⟨q, hq, h⟩ := Option.bind_eq_some_iff.mp h
    injection h with h
    subst h
    obtain ⟨i1, i2⟩ := readDcts_ok n _ q hq
    refine ⟨by rw [List.length_cons, i1], fun x hx => ?_⟩
    rcases List.mem_cons.mp hx with rfl | hx
    · exact readDct_ok _ _ a ha
    · exact i2 x hx

theorem readSpline_ok {ρ : Type} {R : Reader ρ} {mx total : Nat} {r : ρ} {o : (Spline × Nat) × ρ} (h : readSpline R mx total r = some o) :
    SplineOk o.1.1 ∧ o.1.2 = total + o.1.1.steps.length ∧ o.1.2 ≤ mx := by
  unfold readSpline at h
  dsimp only at h
  generalize R.read r 3 = k at h
  by_cases h1 : k.1 > mx
  · rw [if_pos h1] at h
    cases h
  rw [if_neg h1] at h
  by_cases h2 : total + k.1 > mx
  · rw [if_pos h2] at h
    cases h
  rw [if_neg h2] at h
  obtain ⟨a, ha, h⟩ := Option.bind_eq_some_iff.mp h
  obtain ⟨b, hb, h⟩ := Option.bind_eq_some_iff.mp h
  obtain ⟨c, hc, h⟩ := Option.bind_eq_some_iff.mp h
  injection h with h
  subst h
  obtain ⟨a1, a2⟩ := readSteps_ok _ _ _ ha
  obtain ⟨b1, b2⟩ := readDcts_ok _ _ _ hb
  refine ⟨⟨a2, b1, b2, readDct_ok _ _ _ hc⟩, ?_, ?_⟩
  · dsimp only
    rw [a1]
  · dsimp only
    omega

theorem readSplines_ok {ρ : Type} {R : Reader ρ} {mx : Nat} : ∀ (n total : Nat) (r : ρ) (o : List Spline × ρ), readSplines R mx n total r = some o → total ≤ mx →
    o.1.length = n ∧ (∀ q ∈ o.1, SplineOk q) ∧ total + (o.1.map fun q => q.steps.length).sum ≤ mx
  | 0, _, _, _, h, ht => by cases h; exact ⟨rfl, (by intro p hp; cases hp), ht⟩
  | n + 1, total, r, o, h, ht => by
    rw [readSplines] at h
    obtain ⟨a, ha, h⟩ := Option.bind_eq_some_iff.mp h
    obtain ⟨q, hq, h⟩ := Option.bind_eq_some_iff.mp h
    injection h with h
    subst h
    obtain ⟨a1, a2, a3⟩ := readSpline_ok ha
    obtain ⟨i1, i2, i3⟩ := readSplines_ok n _ _ q hq a3
    refine ⟨by rw [List.length_cons, i1], fun x hx => ?_, ?_⟩
    · rcases List.mem_cons.mp hx with rfl | hx
      · exact a1
      · exact i2 x hx
    · dsimp only
      rw [List.map_cons, List.sum_cons]
      omega

theorem decode_ok {ρ : Type} {R : Reader ρ} {pixels : Nat} {r : ρ} {o : Set × ρ} (h : decode R pixels r = some o) : o.1.Ok pixels := by
  unfold decode at h
  dsimp only at h
  generalize R.read r 2 = n at h
  by_cases h1 : n.1 > maxPoints pixels ∨ n.1 + 1 > maxPoints pixels
  · rw [if_pos h1] at h
    cases h
  rw [if_neg h1] at h
  obtain ⟨a, ha, h⟩ := Option.bind_eq_some_iff.mp h
  obtain ⟨b, hb, h⟩ := Option.bind_eq_some_iff.mp h
  injection h with h
  subst h
  obtain ⟨a1, a2⟩ := readStarts_ok _ _ _ _ ha
  obtain ⟨b1, b2, b3⟩ := readSplines_ok _ _ _ _ hb (by omega)
  refine ⟨?_, by rw [a1, b1], a2, fun q hq => (b2 q hq).1, fun q hq => (b2 q hq).2, ?_, unpack_range _⟩
  · intro e
    dsimp only at e
    rw [e] at b1
    cases b1
  · dsimp only
    rw [sum_succ, b1]
    unfold maxPoints at b3
    omega

/-! ## Any bits -/

section keeps
variable {ρ : Type} {R : Reader ρ} {P : ρ → Prop} (hP : ∀ r c, c < 6 → P r → P (R.read r c).2)
include hP

theorem readStarts_keeps : ∀ (n : Nat) (last : Option (Int × Int)) (r : ρ) (o : List (Int × Int) × ρ), P r → readStarts R n last r = some o → P o.2
  | 0, _, _, _, hr, h => by cases h; exact hr
  | n + 1, last, r, o, hr, h => by
    have h1 := hP _ 1 (by decide) hr
    have h2 := hP _ 1 (by decide) h1
    rw [readStarts] at h
    split at h
    · obtain ⟨q, hq, h⟩ := Option.bind_eq_some_iff.mp h
      injection h with h
      subst h
      exact readStarts_keeps n _ _ q h2 hq
    · cases h

theorem readSteps_keeps : ∀ (n : Nat) (r : ρ) (o : List (Int × Int) × ρ), P r → readSteps R n r = some o → P o.2
  | 0, _, _, hr, h => by cases h; exact hr
  | n + 1, r, o, hr, h => by
    have h1 := hP _ 4 (by decide) hr
    have h2 := hP _ 4 (by decide) h1
    rw [readSteps] at h
    split at h
    · obtain ⟨q, hq, h⟩ := Option.bind_eq_some_iff.mp h
      injection h with h
      subst h
      exact readSteps_keeps n _ q h2 hq
    · cases h

theorem readDct_keeps : ∀ (n : Nat) (r : ρ) (o : List Int × ρ), P r → readDct R n r = some o → P o.2
  | 0, _, _, hr, h => by cases h; exact hr
  | n + 1, r, o, hr, h => by
    have h1 := hP _ 5 (by decide) hr
    rw [readDct] at h
    split at h
    · cases h
    · obtain ⟨q, hq, h⟩ := Option.bind_eq_some_iff.mp h
      injection h with h
      subst h
      exact readDct_keeps n _ q h1 hq

theorem readDcts_keeps : ∀ (n : Nat) (r : ρ) (o : List (List Int) × ρ), P r → readDcts R n r = some o → P o.2
  | 0, _, _, hr, h => by cases h; exact hr
  | n + 1, r, o, hr, h => by
    rw [readDcts] at h
    obtain ⟨a, ha, h⟩ := Option.bind_eq_some_iff.mp h
    obtain ⟨q, hq, h⟩ := Option.bind_eq_some_iff.mp h
    injection h with h
    subst h
    exact readDcts_keeps n _ q (readDct_keeps hP _ _ a hr ha) hq

theorem readSpline_keeps {mx total : Nat} {r : ρ} {o : (Spline × Nat) × ρ} (hr : P r) (h : readSpline R mx total r = some o) : P o.2 := by
  have h1 := hP _ 3 (by decide) hr
  unfold readSpline at h
  dsimp only at h
  split at h
  · cases h
  split at h
  · cases h
  obtain ⟨a, ha, h⟩ := Option.bind_eq_some_iff.mp h
  obtain ⟨b, hb, h⟩ := Option.bind_eq_some_iff.mp h
  obtain ⟨c, hc, h⟩ := Option.bind_eq_some_iff.mp h
  injection h with h
  subst h
  exact readDct_keeps hP _ _ c (readDcts_keeps hP _ _ b (readSteps_keeps hP _ _ a h1 ha) hb) hc

theorem readSplines_keeps {mx : Nat} : ∀ (n total : Nat) (r : ρ) (o : List Spline × ρ), P r → readSplines R mx n total r = some o → P o.2
  | 0, _, _, _, hr, h => by cases h; exact hr
  | n + 1, total, r, o, hr, h => by
    rw [readSplines] at h
    obtain ⟨a, ha, h⟩ := Option.bind_eq_some_iff.mp h
    obtain ⟨q, hq, h⟩ := Option.bind_eq_some_iff.mp h
    injection h with h
    subst h
    exact readSplines_keeps n _ _ q (readSpline_keeps hP hr ha) hq

theorem decode_keeps {pixels : Nat} {r : ρ} {o : Set × ρ} (hr : P r) (h : decode R pixels r = some o) : P o.2 := by
  have h1 := hP _ 2 (by decide) hr
  unfold decode at h
  dsimp only at h
  split at h
  · cases h
  obtain ⟨a, ha, h⟩ := Option.bind_eq_some_iff.mp h
  obtain ⟨b, hb, h⟩ := Option.bind_eq_some_iff.mp h
  injection h with h
  subst h
  exact readSplines_keeps hP _ _ _ b (hP _ 0 (by decide) (readStarts_keeps hP _ _ _ a h1 ha)) hb

end keeps

theorem readSet_safe {env : Stream.Env} (he : Stream.EnvOk env) (pixels : Nat) (s : List Bool) : (readSet env pixels s).Safe fun q => q.1.Ok pixels := by
  unfold readSet
  refine Stream.safe_bind (Stream.histograms_safe he 6 s) (fun a ha => ?_)
  obtain ⟨c, s1⟩ := a
  have hc : Stream.CodeOk 6 c := ha
  have hst : (Stream.start c.tables s1).Safe fun st => Stream.LzInv st.lz := by
    unfold Stream.start
    split
    · exact Stream.safe_bind Stream.safe_any (fun _ _ => ⟨Lz77.start_rel, (by decide : (0:Nat) < 2 ^ 32)⟩)
    · exact ⟨Lz77.start_rel, (by decide : (0:Nat) < 2 ^ 32)⟩
  refine Stream.safe_bind hst (fun st hinv => ?_)
  cases hd : decode (contextReader c 0) pixels (.ok st) with
  | none => trivial
  | some q =>
    obtain ⟨d, r⟩ := q
    have hr := decode_keeps (P := fun r : Stream.Out Stream.St => r.Safe fun st : Stream.St => Stream.LzInv st.lz) (fun r x hx hr => reader_keeps hc 0 r x hx hr) (r := .ok st) hinv hd
    dsimp only at hr ⊢
    cases r with
    | ub => exact hr
    | deep => exact hr
    | bad => trivial
    | ok st2 =>
      show (if Stream.finalOk st2 then Stream.Out.ok (d, st2.bits) else .bad).Safe _
      split
      · exact (decode_ok hd : d.Ok pixels)
      · trivial

/-! ## Points from any differences -/

theorem safe_int {v : Int} (h : -2 ^ 31 ≤ v ∧ v < 2 ^ 31) : (int v).Safe fun w => w = v := by
  rw [int_ok h]
  exact rfl

theorem step_safe {lim : Nat} {s p d : Int × Int} {m : Nat} (hp : Near (2 ^ 23) p) (hd : Near (2 ^ 23) d) (h1 : Near (2 ^ 30 - 2 ^ 23) s) :
    ∃ x, step lim s p d m = x ∧ x.Safe fun o => Near (2 ^ 23) o.1 ∧ Near (2 ^ 23) o.2.1 := by
  refine ⟨_, rfl, ?_⟩
  unfold Near at hp hd h1
  unfold step
  dsimp only
  rw [narrow_ok (by omega) (by omega), narrow_ok (by omega) (by omega), abs_ok (by omega) (by omega), abs_ok (by omega) (by omega), ok_bind, ok_bind, int_ok (by omega), ok_bind]
  by_cases c1 : u64 (m + (((d.1 + s.1).natAbs : Int) + ((d.2 + s.2).natAbs : Int)).toNat) > lim
  · rw [if_pos c1]
    trivial
  rw [if_neg c1]
  by_cases c2 : within (2 ^ 23) (d.1 + s.1) (d.2 + s.2) = true
  · rw [if_pos c2]
    have hw := within_iff.mp c2
    have hw' := hw
    unfold Near at hw'
    dsimp only at hw'
    rw [int_ok (by omega), int_ok (by omega), ok_bind, ok_bind]
    by_cases c3 : within (2 ^ 23) (p.1 + (d.1 + s.1)) (p.2 + (d.2 + s.2)) = true
    · rw [if_pos c3]
      exact ⟨within_iff.mp c3, hw⟩
    · rw [if_neg c3]
      trivial
  · rw [if_neg c2]
    trivial

seal step in
/-- Walking is defined if no difference is close to the limit. -/
theorem walk_safe {lim : Nat} : ∀ (ss : List (Int × Int)) (p d : Int × Int) (m : Nat), Near (2 ^ 23) p → Near (2 ^ 23) d → (∀ s ∈ ss, Near (2 ^ 30 - 2 ^ 23) s) →
    (walk lim ss p d m).Safe fun _ => True := by
  intro ss
  induction ss with
  | nil => exact fun _ _ _ _ _ _ => trivial
  | cons s ss ih =>
    intro p d m hp hd hs
    have h0 := hs s (List.mem_cons_self ..)
    obtain ⟨x, hx, h1⟩ := step_safe (lim := lim) (m := m) hp hd h0
    rw [walk, hx]
    refine Stream.safe_bind h1 (fun o ho => ?_)
    exact Stream.safe_bind (ih _ _ _ ho.1 ho.2 (fun x hx => hs x (List.mem_cons_of_mem _ hx))) (fun _ _ => trivial)

theorem bind_ok {α β : Type} {x : Out α} {f : α → Out β} {b : β} (h : x.bind f = .ok b) : ∃ a, x = .ok a ∧ f a = .ok b := by
  cases x with
  | ub => cases h
  | deep => cases h
  | bad => cases h
  | ok a => exact ⟨a, rfl, h⟩

theorem int_eq {v w : Int} (h : int v = .ok w) : w = v := by
  unfold int at h
  split at h
  · injection h with h
    exact h.symm
  · cases h

theorem step_ok {lim : Nat} (hlim : lim ≤ 2 ^ 42) {s p d : Int × Int} {m : Nat} {o : (Int × Int) × (Int × Int) × Nat} (hp : Near (2 ^ 23) p) (hd : Near (2 ^ 23) d) (hm : m ≤ lim) (h1 : Near (2 ^ 30) s)
    (h : step lim s p d m = .ok o) : Near (2 ^ 23) o.1 ∧ Near (2 ^ 23) o.2.1 ∧ o.2.1 = (d.1 + s.1, d.2 + s.2) ∧ o.1 = (p.1 + (d.1 + s.1), p.2 + (d.2 + s.2)) ∧
      o.2.2 = m + ((d.1 + s.1).natAbs + (d.2 + s.2).natAbs) ∧ o.2.2 ≤ lim := by
  unfold Near at hp hd h1
  unfold step at h
  dsimp only at h
  rw [narrow_ok (by omega) (by omega), narrow_ok (by omega) (by omega), abs_ok (by omega) (by omega), abs_ok (by omega) (by omega)] at h
  obtain ⟨ax, ha, h⟩ := bind_ok h
  injection ha with ha
  subst ha
  obtain ⟨ay, ha, h⟩ := bind_ok h
  injection ha with ha
  subst ha
  obtain ⟨a, ha, h⟩ := bind_ok h
  have ha := int_eq ha
  subst ha
  have e : u64 (m + (((d.1 + s.1).natAbs : Int) + ((d.2 + s.2).natAbs : Int)).toNat) = m + ((d.1 + s.1).natAbs + (d.2 + s.2).natAbs) := by
    rw [u64_ok (by omega)]
    omega
  rw [e] at h
  by_cases c1 : m + ((d.1 + s.1).natAbs + (d.2 + s.2).natAbs) > lim
  · rw [if_pos c1] at h
    cases h
  rw [if_neg c1] at h
  by_cases c2 : within (2 ^ 23) (d.1 + s.1) (d.2 + s.2) = true
  · rw [if_pos c2] at h
    have hw := within_iff.mp c2
    obtain ⟨x, hx, h⟩ := bind_ok h
    have hx := int_eq hx
    subst hx
    obtain ⟨y, hy, h⟩ := bind_ok h
    have hy := int_eq hy
    subst hy
    by_cases c3 : within (2 ^ 23) (p.1 + (d.1 + s.1)) (p.2 + (d.2 + s.2)) = true
    · rw [if_pos c3] at h
      injection h with h
      subst h
      exact ⟨within_iff.mp c3, hw, rfl, rfl, rfl, Nat.le_of_not_gt c1⟩
    · rw [if_neg c3] at h
      cases h
  · rw [if_neg c2] at h
    cases h

theorem walk_ok {lim : Nat} (hlim : lim ≤ 2 ^ 42) : ∀ (ss : List (Int × Int)) (p d : Int × Int) (m : Nat) (l : List (Int × Int)), Near (2 ^ 23) p → Near (2 ^ 23) d → m ≤ lim →
    (∀ s ∈ ss, Near (2 ^ 30) s) → walk lim ss p d m = .ok l → l = track p d ss ∧ (∀ q ∈ l, Near (2 ^ 23) q) ∧ m + len (p :: l) ≤ lim := by
  intro ss
  induction ss with
  | nil =>
    intro p d m l hp hd hm hs h
    injection h with h
    subst h
    exact ⟨rfl, (by intro q hq; cases hq), hm⟩
  | cons s ss ih =>
    intro p d m l hp hd hm hs h
    rw [walk] at h
    obtain ⟨o, ho, h⟩ := bind_ok h
    obtain ⟨q, hq, h⟩ := bind_ok h
    injection h with h
    subst h
    obtain ⟨o1, o2, o3, o4, o5, o6⟩ := step_ok hlim hp hd hm (hs s (List.mem_cons_self ..)) ho
    obtain ⟨i1, i2, i3⟩ := ih _ _ _ q o1 o2 o6 (fun x hx => hs x (List.mem_cons_of_mem _ hx)) hq
    refine ⟨by rw [track, i1, o3, o4], fun x hx' => ?_, ?_⟩
    · rcases List.mem_cons.mp hx' with rfl | hx'
      · exact o1
      · exact i2 x hx'
    · rw [len]
      rw [o5] at i3
      have e1 : o.1.1 - p.1 = d.1 + s.1 := by rw [o4]; dsimp only; omega
      have e2 : o.1.2 - p.2 = d.2 + s.2 := by rw [o4]; dsimp only; omega
      rw [e1, e2]
      omega

theorem points_ok {size : Nat} {p : Int × Int} {ss l : List (Int × Int)} (hs : ∀ s ∈ ss, Near (2 ^ 30) s) (h : points size p ss = .ok l) :
    l = p :: track p (0, 0) ss ∧ (∀ q ∈ l, Near (2 ^ 23) q) ∧ len l ≤ 2 ^ 42 := by
  unfold points at h
  by_cases c : within (2 ^ 23) p.1 p.2 = true
  · rw [if_pos c] at h
    obtain ⟨q, hq, h⟩ := bind_ok h
    injection h with h
    subst h
    have hl : areaLimit size ≤ 2 ^ 42 := Nat.min_le_right _ _
    obtain ⟨i1, i2, i3⟩ := walk_ok hl ss p (0, 0) 0 q (within_iff.mp c) (by unfold Near; omega) (Nat.zero_le _) hs hq
    refine ⟨by rw [i1], fun x hx => ?_, by omega⟩
    rcases List.mem_cons.mp hx with rfl | hx
    · exact within_iff.mp c
    · exact i2 x hx
  · rw [if_neg c] at h
    cases h

theorem repeats_apart : ∀ (pre l : List (Int × Int)) (a b : Int × Int), repeats (pre ++ a :: b :: l) = false → a ≠ b
  | [], l, a, b, h => by
    rw [List.nil_append, repeats, Bool.or_eq_false_iff] at h
    exact of_decide_eq_false h.1
  | [c], l, a, b, h => by
    rw [List.cons_append, List.nil_append, repeats, Bool.or_eq_false_iff] at h
    exact repeats_apart [] l a b h.2
  | c :: d :: pre, l, a, b, h => by
    rw [List.cons_append, List.cons_append, repeats, Bool.or_eq_false_iff] at h
    exact repeats_apart (d :: pre) l a b h.2

theorem allPoints_ok {size : Nat} : ∀ (ps : List (Int × Int)) (qs : List Spline) (ls : List (List (Int × Int))), ps.length = qs.length → (∀ q ∈ qs, ∀ s ∈ q.steps, Near (2 ^ 30) s) →
    allPoints size ps qs = .ok ls → ls = List.zipWith (fun p q => p :: track p (0, 0) q.steps) ps qs ∧
      ∀ l ∈ ls, (∀ p ∈ l, Near (2 ^ 23) p) ∧ len l ≤ 2 ^ 42 ∧ ∀ pre a b post, l = pre ++ a :: b :: post → a ≠ b
  | [], [], ls, _, _, h => by
    injection h with h
    subst h
    exact ⟨rfl, by intro l hl; cases hl⟩
  | p :: ps, q :: qs, ls, hl, hs, h => by
    rw [allPoints] at h
    obtain ⟨l, h1, h⟩ := bind_ok h
    by_cases hr : repeats l = true
    · rw [if_pos hr] at h
      cases h
    rw [if_neg hr] at h
    obtain ⟨ls', h2, h⟩ := bind_ok h
    injection h with h
    subst h
    obtain ⟨a1, a2, a3⟩ := points_ok (hs q (List.mem_cons_self ..)) h1
    obtain ⟨i1, i2⟩ := allPoints_ok ps qs ls' (by simpa using hl) (fun q hq => hs q (List.mem_cons_of_mem _ hq)) h2
    refine ⟨by rw [List.zipWith_cons_cons, ← i1, ← a1], fun x hx => ?_⟩
    rcases List.mem_cons.mp hx with rfl | hx
    · refine ⟨a2, a3, fun pre a b post e => ?_⟩
      rw [e, Bool.not_eq_true] at hr
      exact repeats_apart pre post a b hr
    · exact i2 x hx

seal walk in
theorem points_safe {size : Nat} {p : Int × Int} {ss : List (Int × Int)} (hs : ∀ s ∈ ss, Near (2 ^ 30 - 2 ^ 23) s) : ∃ x, points size p ss = x ∧ x.Safe fun _ => True := by
  refine ⟨_, rfl, ?_⟩
  unfold points
  by_cases c : within (2 ^ 23) p.1 p.2 = true
  · rw [if_pos c]
    have h := walk_safe (lim := areaLimit size) ss p (0, 0) 0 (within_iff.mp c) (by unfold Near; omega) hs
    exact Stream.safe_bind h (fun _ _ => trivial)
  · rw [if_neg c]
    trivial

seal points in
theorem allPoints_safe {size : Nat} : ∀ (ps : List (Int × Int)) (qs : List Spline), (∀ q ∈ qs, ∀ s ∈ q.steps, Near (2 ^ 30 - 2 ^ 23) s) → (allPoints size ps qs).Safe fun _ => True := by
  intro ps
  induction ps with
  | nil => exact fun qs _ => by unfold allPoints; trivial
  | cons p ps ih =>
    intro qs hs
    cases qs with
    | nil => unfold allPoints; trivial
    | cons q qs =>
      obtain ⟨x, hx, h1⟩ := points_safe (size := size) (p := p) (hs q (List.mem_cons_self ..))
      have h2 := ih qs (fun q hq => hs q (List.mem_cons_of_mem _ hq))
      rw [allPoints, hx]
      refine Stream.safe_bind h1 (fun o _ => ?_)
      split
      · trivial
      · exact Stream.safe_bind h2 (fun _ _ => trivial)

theorem bits_fed {mem : Nat → List Alias.Entry} (hm : ∀ la, (mem la).length = 2 ^ la) {layers : List Stream.Layer} {p : Stream.Plan} (hs : Stream.Sound layers p)
    (hn : p.map.length = if p.lz.isSome then 6 + 1 else 6) {toks : List (Nat × Nat)} {ts : List Ans.Token} (hts : Stream.Tokenised p 0 0 ts toks) :
    ∃ bits, Patches.writeDict mem layers p ts = some bits ∧ ∀ env, Stream.EnvOk env → ∀ pixels rest,
      (∀ s, (∀ (ρ : Type) (R : Reader ρ) (r r' : ρ), Feed R r toks r' → decode R pixels r = some (s, r')) → readSet env pixels (bits ++ rest) = .ok (s, rest)) ∧
      ((∀ (ρ : Type) (R : Reader ρ) (r r' : ρ), Feed R r toks r' → decode R pixels r = none) → readSet env pixels (bits ++ rest) = .bad) := by
  obtain ⟨bits, b1, b2⟩ := stream_feed hm hs hn hts
  refine ⟨bits, b1, fun env henv pixels rest => ?_⟩
  obtain ⟨c, s, st0, st, c1, c2, c3, c4, c5⟩ := b2 env henv rest
  have key : readSet env pixels (bits ++ rest) = (match decode (contextReader c 0) pixels (.ok st0) with
      | none => Stream.Out.bad
      | some (d, r) => r.bind fun st => if Stream.finalOk st then .ok (d, st.bits) else .bad) := by
    unfold readSet
    rw [c1]
    show ((Stream.start c.tables s).bind _ : Stream.Out _) = _
    rw [c2]
    rfl
  constructor
  · intro d hd
    rw [key, hd _ _ _ _ c3]
    show (if Stream.finalOk st then Stream.Out.ok (d, st.bits) else .bad) = _
    rw [if_pos c4, c5]
  · intro hd
    rw [key, hd _ _ _ _ c3]

theorem stands_literals {m : Lz77.Meaning} {b : Bool} {dctx : Nat} : ∀ (vs : List (Nat × Nat)) (h : List Nat), Stream.Stands m b dctx h (vs.map fun v => ⟨false, v.1, v.2⟩) vs
  | [], h => .done h
  | (c, v) :: vs, h => .literal (stands_literals vs (h ++ [v]))

/-- Tokens without copies. -/
theorem tokenised_plain {p : Stream.Plan} (hlz : p.lz = none) {vs : List (Nat × Nat)} (hv : ∀ v ∈ vs, v.2 < 2 ^ 32 ∧ v.1 < p.map.length ∧ 0 < Stream.weight p.stats (Stream.cluster p 0 ⟨false, v.1, v.2⟩) (Stream.symbol p 0 ⟨false, v.1, v.2⟩))
    (hc : vs.length < 2 ^ 32) : Stream.Tokenised p 0 0 (vs.map fun v => ⟨false, v.1, v.2⟩) vs := by
  refine ⟨fun t ht => ?_, ⟨0, fun h => absurd hlz h, stands_literals vs []⟩, fun v h => by have := (hv v h).2.1; omega, hc⟩
  obtain ⟨v, h, rfl⟩ := List.mem_map.mp ht
  obtain ⟨h1, h2, h3⟩ := hv v h
  refine ⟨h1, by dsimp only; omega, h3, ?_, ?_⟩
  · intro h
    cases h
  · intro _ z hz
    rw [hlz] at hz
    cases hz

end Jxl.Splines
