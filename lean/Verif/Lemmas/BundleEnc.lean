import Verif.Lemmas.Bundle
import Verif.Lemmas.F16
namespace Jxl.Bundle

/-- Every visited field has an encodable value (meaning of the coders, not their code). -/
def Encodable : Prog → Env → Prop
  | .skip, _ => True
  | .seq a b, e => Encodable a e ∧ Encodable b e
  | .bits n _ f, e => e f < 2 ^ n
  | .u32 enc _ f, e => ∃ t < 4, U32.Represents (enc.get t) (e f)
  | .u64 _ _, _ => True
  | .f16 _ f, e => F16.canEncode (e f) = true ∧ e f < 2 ^ 32
  | .enum valid _ f, e => e f < 64 ∧ EnumField.valid valid (e f) = true
  | .cond deps c p, e => c (deps.map e) = true → Encodable p e
  | .check deps c, e => c (deps.map e) = true
  | .allDefault p, e => Encodable p e
  | .ext _ p, e => Encodable p e
  | .rep deps n p, e => ∀ i < n (deps.map e), Encodable (p i) e

theorem u32_ok {enc : U32.Enc} {v : Nat} (h : ∃ t < 4, U32.Represents (enc.get t) v) :
    ∃ sel tot, U32.chooseSelector enc v = some (sel, tot) := by
  rcases hc : U32.chooseSelector enc v with _ | ⟨sel, tot⟩
  · obtain ⟨t, ht, hr⟩ := h
    exact absurd hr (U32.chooseSelector_none.mp hc t ht)
  · exact ⟨sel, tot, rfl⟩

theorem encodable_ok (near : Nat → Nat → Bool) (p : Prog) (e : Env) (c : CS) (h : Encodable p e) (hn : NoExt p e) :
    (∃ c', canP near e p c = some c') ∧ ∃ b, writeP near 0 e p = some b := by
  induction p generalizing c with
  | skip => exact ⟨⟨_, rfl⟩, _, rfl⟩
  | check deps g =>
    have h : g (deps.map e) = true := h
    exact ⟨⟨c, by rw [canP, if_pos h]⟩, [], by rw [writeP, if_pos h]⟩
  | seq p q ihp ihq =>
    obtain ⟨⟨c1, h1⟩, b1, h2⟩ := ihp c h.1 hn.1
    obtain ⟨⟨c2, h3⟩, b2, h4⟩ := ihq c1 h.2 hn.2
    exact ⟨⟨c2, by rw [canP, h1, Option.bind_some, h3]⟩, b1 ++ b2, by simp [writeP, h2, h4]⟩
  | bits n d f =>
    have h : e f < 2 ^ n := h
    exact ⟨⟨{ c with n := c.n + n }, by rw [canP, canEncodeBits, if_neg (by omega)]; rfl⟩, bitsOf n (e f), by
      rw [writeP, writeBitsField, if_neg (by omega)]⟩
  | u32 enc d f =>
    obtain ⟨sel, tot, hs⟩ := u32_ok h
    refine ⟨⟨{ c with n := c.n + tot }, by rw [canP, U32.canEncode, hs]; rfl⟩, ?_⟩
    rcases hw : U32.write enc (e f) with _ | b
    · rw [U32.write_none.mp hw] at hs; cases hs
    · exact ⟨b, by rw [writeP, hw]⟩
  | u64 d f => exact ⟨⟨_, rfl⟩, _, rfl⟩
  | f16 d f =>
    refine ⟨⟨{ c with n := c.n + 16 }, by rw [canP, if_pos h.1]⟩, ?_⟩
    simp only [writeP, F16.write]
    have h1 := (F16.canEncode_iff (e f)).mp h.1
    have h2 : ∃ x, F16.encode (e f) = some x := by
      rw [F16.encode_eq _ h.2]
      dsimp only
      rw [if_neg (by omega)]
      split
      · exact ⟨_, rfl⟩
      · split <;> exact ⟨_, rfl⟩
    obtain ⟨x, hx⟩ := h2
    rw [hx]; exact ⟨_, rfl⟩
  | enum valid d f =>
    obtain ⟨sel, tot, hs⟩ : ∃ sel tot, U32.chooseSelector EnumField.enc (e f) = some (sel, tot) := by
      rcases hc : U32.chooseSelector EnumField.enc (e f) with _ | ⟨sel, tot⟩
      · exact absurd hc (EnumField.enc_ok _ h.1)
      · exact ⟨sel, tot, rfl⟩
    refine ⟨⟨{ c with n := c.n + tot }, ?_⟩, ?_⟩
    · rw [canP, U32.canEncode, hs]; simp [h.2]
    rcases hw : U32.write EnumField.enc (e f) with _ | b
    · rw [U32.write_none.mp hw] at hs; cases hs
    · exact ⟨b, by rw [writeP, EnumField.write, hw]; simp [h.2]⟩
  | cond deps g p ih =>
    simp only [canP, writeP]
    by_cases hg : g (deps.map e) = true
    · rw [if_pos hg, if_pos hg]; exact ih c (h hg) (hn hg)
    · rw [if_neg hg, if_neg hg]; exact ⟨⟨_, rfl⟩, _, rfl⟩
  | allDefault p ih =>
    simp only [canP, writeP]
    by_cases hg : isDefault near p e = true
    · rw [if_pos hg, if_pos hg]; exact ⟨⟨_, rfl⟩, _, rfl⟩
    · rw [if_neg hg, if_neg hg]
      obtain ⟨h1, b, h2⟩ := ih { c with n := c.n + 1 } h hn
      exact ⟨h1, _, by rw [h2]; rfl⟩
  | ext f p ih =>
    simp only [canP, writeP, hn.1, if_true, ne_eq, not_true_eq_false, if_false]
    obtain ⟨h1, b, h2⟩ := ih { c with n := c.n + U64.encodedBits 0, exts := 0 } h hn.2
    exact ⟨h1, _, by rw [h2]; rfl⟩
  | rep deps n p ih =>
    simp only [canP, writeP]
    simp only [Encodable] at h
    simp only [NoExt] at hn
    generalize n (deps.map e) = k at *
    induction k with
    | zero => exact ⟨⟨_, rfl⟩, _, rfl⟩
    | succ k ihk =>
      obtain ⟨⟨c1, h1⟩, b1, h2⟩ := ihk (fun i hi => h i (by omega)) (fun i hi => hn i (by omega))
      obtain ⟨⟨c2, h3⟩, b2, h4⟩ := ih k c1 (h k (by omega)) (hn k (by omega))
      rw [foldlM_range_succ, foldlM_range_succ, h1, h2]
      exact ⟨⟨c2, h3⟩, b1 ++ b2, by simp [h4]⟩

/-- Encodable contents without extensions can be written. -/
theorem write_ok (near : Nat → Nat → Bool) (p : Prog) (e : Env) (h : Encodable p e) (hn : NoExt p e) :
    ∃ b, write near p e = some (b, b.length) := by
  obtain ⟨⟨c, h1⟩, b, h2⟩ := encodable_ok near p e {} h hn
  obtain ⟨g1, g2, _⟩ := canP_writeP near 0 p e {} c b hn h1 h2
  refine ⟨b, ?_⟩
  simp only [write, h1, Option.bind_eq_bind, Option.bind_some]
  rw [sizes, if_neg (by rw [g2]; simp)]
  simp [h2, g1]

end Jxl.Bundle
