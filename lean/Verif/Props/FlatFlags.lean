import Verif.Props.FlatTree
/-!
# C21: the specialised evaluators are only chosen when they are enough
-/
namespace Jxl.Props
open Jxl.MaTree

theorem fold_noWp (l : List FlatNode) : ∀ f : Flags, (l.foldl markNode f).hasWp = false →
    f.hasWp = false ∧ MemRep l (fun p => p ≠ kWPProp) (fun i => i.predictor ≠ predWeighted) := by
  induction l with
  | nil => intro f h; exact ⟨h, by intro n hn; simp at hn⟩
  | cons a l ih =>
    intro f h
    simp only [List.foldl_cons] at h
    obtain ⟨h1, h2⟩ := ih (markNode f a) h
    have key : f.hasWp = false ∧ MemRep [a] (fun p => p ≠ kWPProp) (fun i => i.predictor ≠ predWeighted) := by
      cases a with
      | leaf i =>
        simp only [markNode, Bool.or_eq_false_iff, beq_eq_false_iff_ne] at h1
        refine ⟨h1.1, ?_⟩
        intro n hn
        simp at hn; subst hn; exact h1.2
      | split p0 v0 pa va pb vb ch =>
        simp only [markNode, markProperty, countProperty, Bool.or_eq_false_iff, beq_eq_false_iff_ne] at h1
        obtain ⟨⟨⟨h0, ha⟩, hb⟩, hp⟩ := h1
        refine ⟨h0, ?_⟩
        intro n hn
        simp at hn; subst hn
        exact ⟨hp, fun _ => ha, fun _ => hb⟩
    refine ⟨key.1, ?_⟩
    intro n hn
    rcases List.mem_cons.mp hn with rfl | hn
    · exact key.2 n (by simp)
    · exact h2 n hn

theorem eval_agree {f : Nat → Prop} {t : Dtree} (h : t.AllSplits (fun p _ => f p)) {u v : Nat → Int} (he : ∀ p, f p → u p = v p) :
    t.eval u = t.eval v := by
  induction t with
  | leaf i => rfl
  | split p x l r ihl ihr =>
    simp only [Dtree.eval]
    rw [he p h.1, ihl h.2.1, ihr h.2.2]

/-- **C21, choice of the evaluator.**  Whatever the tree, channel and group (`sp`): if the decoder decides not to keep the weighted
predictor's state, then no pixel of the channel selects that predictor and its error property never matters; if it treats the channel as
"weighted only" or "gradient only", then every pixel selects that predictor and no property but that one matters; the number of properties
it computes covers every property that matters. -/
theorem C21_evaluator_choice {tree : List Node} {t : Dtree} (hw : TreeWf tree t) (sp : Nat → Int) :
    ∃ F, filterTree tree sp (2 * t.size) = some F ∧
      (F.useWp = false → ∀ u v : Nat → Int, (∀ p, p < 2 → u p = sp p) → (∀ p, p ≠ 15 → v p = u p) → (t.eval u).predictor ≠ 6 ∧ t.eval v = t.eval u) ∧
      (F.wpOnly = true → F.useWp = true ∧
        ∀ u v : Nat → Int, (∀ p, p < 2 → u p = sp p ∧ v p = sp p) → v 15 = u 15 → (t.eval u).predictor = 6 ∧ t.eval v = t.eval u) ∧
      (F.gradientOnly = true →
        ∀ u v : Nat → Int, (∀ p, p < 2 → u p = sp p ∧ v p = sp p) → v 9 = u 9 → (t.eval u).predictor = 5 ∧ t.eval v = t.eval u) ∧
      (∀ u v : Nat → Int, (∀ p, p < 2 → u p = sp p) → (∀ p, p < F.numProps → v p = u p) → t.eval v = t.eval u) := by
  obtain ⟨F, h1, h2, -, -, -, -, -⟩ := filterTree_total hw sp
  have hst := flatRep_static h2
  refine ⟨F, h1, ?_⟩
  unfold filterTree at h1
  cases ho : filterLoop tree sp (2 * t.size) [0] [] with
  | none => rw [ho] at h1; cases h1
  | some out =>
    rw [ho, Option.map_some] at h1
    injection h1 with h1
    subst h1
    dsimp only at h2 ⊢
    generalize hf : out.foldl markNode { numProps := 0, hasWp := false, hasNonWp := false, gradientOnly := true } = f
    refine ⟨?_, ?_, ?_, ?_⟩
    · intro hwp u v hu hv
      rw [← hf] at hwp
      have ha := flatRep_all (fold_noWp out _ hwp).2 h2
      have hv2 : ∀ p, p < 2 → v p = sp p := fun p hp => by rw [hv p (by omega), hu p hp]
      constructor
      · have := eval_leaf_prop ha.2 u
        rw [resolve_eval hu] at this
        exact this
      · rw [← resolve_eval hv2, ← resolve_eval hu]
        exact eval_agree ha.1 (fun p hp => hv p hp)
    · intro hwo
      rw [Bool.and_eq_true, Bool.not_eq_true'] at hwo
      refine ⟨hwo.1, fun u v huv h15 => ?_⟩
      have hn := hwo.2
      rw [← hf] at hn
      have ha := flatRep_all (fold_wp out _ hn).2 h2
      have ha' := allSplits_mono (fun p v h => h.2 h.1) (allSplits_and hst ha.1)
      have hu : ∀ p, p < 2 → u p = sp p := fun p hp => (huv p hp).1
      have hv : ∀ p, p < 2 → v p = sp p := fun p hp => (huv p hp).2
      constructor
      · have := eval_leaf_prop ha.2 u
        rw [resolve_eval hu] at this
        exact this
      · rw [← resolve_eval hv, ← resolve_eval hu]
        exact eval_agree (f := fun p => p = kWPProp) ha' (fun p hp => by rw [hp]; exact h15)
    · intro hg u v huv h9
      rw [← hf] at hg
      have ha := flatRep_all (fold_gradient out _ hg).2 h2
      have ha' := allSplits_mono (fun p v h => h.2 h.1) (allSplits_and hst ha.1)
      have hu : ∀ p, p < 2 → u p = sp p := fun p hp => (huv p hp).1
      have hv : ∀ p, p < 2 → v p = sp p := fun p hp => (huv p hp).2
      constructor
      · have := eval_leaf_prop ha.2 u
        rw [resolve_eval hu] at this
        exact this
      · rw [← resolve_eval hv, ← resolve_eval hu]
        exact eval_agree (f := fun p => p = kGradientProp) ha' (fun p hp => by rw [hp]; exact h9)
    · intro u v hu hv
      have hr := roundProps_ge f.numProps
      have hv2 : ∀ p, p < 2 → v p = sp p := fun p hp => by rw [hv p (by omega), hu p hp]
      have ha := (flatRep_all (fold_num out { numProps := 0, hasWp := false, hasNonWp := false, gradientOnly := true }).2 h2).1
      rw [hf] at ha
      rw [← resolve_eval hv2, ← resolve_eval hu]
      exact eval_agree (f := fun p => p < f.numProps) ha (fun p hp => hv p (by omega))

/-- Channel 0 of the example tree is gradient only and needs no weighted state; channel 1 has a leaf with the weighted predictor. -/
example : ((filterTree flatExampleTree (fun _ => 0) 14).map fun F => (F.useWp, F.wpOnly, F.gradientOnly, F.numProps)) = some (false, false, true, 16) ∧
    ((filterTree flatExampleTree (fun p => if p = 0 then 1 else 0) 14).map fun F => (F.useWp, F.wpOnly, F.gradientOnly)) = some (true, false, false) := by
  decide

end Jxl.Props
