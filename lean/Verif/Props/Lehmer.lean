import Verif.Lemmas.Lehmer
/-!
# C08: permutation coding
-/
namespace Jxl.Props
open Lehmer

/-- Encoding any permutation and decoding the code gives the permutation back. -/
theorem C08_round_trip (n : Nat) (p : List Nat) (h1 : 1 ≤ n) (h2 : n ≤ 2 ^ 30) (hp : p.Perm (List.range n)) :
    ∃ code, computeLehmer p = some code ∧ code.length = n ∧ decodeLehmer code = some p := by
  obtain ⟨g1, g2, g3⟩ := perm_facts hp
  refine ⟨lehmerSpec [] p, computeLehmer_spec p (by omega) (by rw [g3]; exact g2) g1, by rw [lehmerSpec_length, g3], ?_⟩
  have hl : (lehmerSpec [] p).length = n := by rw [lehmerSpec_length, g3]
  obtain ⟨out, e1, e2⟩ := decodeLehmer_spec (lehmerSpec [] p) (by omega) (by omega) (fun k hk => by
    have := lehmerSpec_bound n [] p (fun x hx => ⟨g2 x hx, by simp⟩) g1 List.nodup_nil (by simp) k hk
    rw [hl]; simpa using this)
  rw [e1, e2.unique (by simp) g1]

/-- Whatever code the decoder accepts, the result contains each index exactly once, and encoding it gives the same code. -/
theorem C08_decodes_to_permutation (code p : List Nat) (h2 : code.length ≤ 2 ^ 30) (h : decodeLehmer code = some p) :
    p.Perm (List.range code.length) ∧ computeLehmer p = some code := by
  obtain ⟨h0, hc⟩ := (decodeLehmer_iff code h2).mp ⟨p, h⟩
  obtain ⟨out, e1, e2⟩ := decodeLehmer_spec code (List.length_pos_iff.mpr h0) h2 hc
  rw [h] at e1; cases e1
  obtain ⟨g1, g2, g3, g4⟩ := e2.facts
  refine ⟨perm_range g3 (fun x hx => (g2 x hx).1) g1, ?_⟩
  rw [computeLehmer_spec p (by omega) (fun s hs => by rw [g1]; exact (g2 s hs).1) g3, g4]

/-- Codes out of range (and the empty code) are exactly what is refused. -/
theorem C08_refuses (code : List Nat) (h2 : code.length ≤ 2 ^ 30) :
    decodeLehmer code = none ↔ code = [] ∨ ∃ k, ∃ hk : k < code.length, code.length ≤ code[k] + k := by
  have := decodeLehmer_iff code h2
  constructor
  · intro h
    apply Decidable.byContradiction
    intro hn
    simp only [not_or, not_exists, Nat.not_le] at hn
    obtain ⟨out, ho⟩ := this.mpr hn
    rw [h] at ho; cases ho
  · intro h
    rcases hd : decodeLehmer code with _ | out
    · rfl
    · obtain ⟨h3, h4⟩ := this.mp ⟨out, hd⟩
      rcases h with h | ⟨k, hk, h⟩
      · exact absurd h h3
      · have := h4 k hk; omega

/-- The token form, with the first `skip` (fixed) entries and trailing zeros left out. -/
theorem C08_tokens_round_trip (n skip : Nat) (p rest : List Nat) (h1 : 1 ≤ n) (h2 : n ≤ 2 ^ 30) (hs : skip ≤ n)
    (hp : p.Perm (List.range n)) (hfix : ∀ k, k < skip → p[k]? = some k) :
    ∃ ts, tokenize p skip = some ts ∧ readPermutation skip n (ts ++ rest) = some (p, rest) := by
  obtain ⟨code, e1, e2, e3⟩ := C08_round_trip n p h1 h2 hp
  obtain ⟨g1, g2, g3⟩ := perm_facts hp
  have hcode : code = lehmerSpec [] p := by
    have := computeLehmer_spec p (by omega) (by rw [g3]; exact g2) g1
    rw [e1] at this; simpa using this
  obtain ⟨t1, t2, t3⟩ := trimEnd_spec code skip n hs
  simp only [tokenize, e1, Option.bind_eq_bind, Option.bind_some, g3]
  refine ⟨_, rfl, ?_⟩
  generalize trimEnd code skip n = e at *
  simp only [List.cons_append, readPermutation]
  have hlen : ((code.take e).drop skip).length = e - skip := by simp; omega
  have hmod : (e - skip + skip) % 2 ^ 32 = e := by rw [Nat.mod_eq_of_lt (by omega)]; omega
  rw [hmod, if_neg (by omega)]
  have hrd := readCodes_spec n ((code.take e).drop skip) rest skip (fun k hk => by
    have hk' : skip + k < code.length := by omega
    have := (decodeLehmer_iff code (by omega)).mp ⟨p, e3⟩
    have := this.2 (skip + k) hk'
    simp only [List.getElem_drop, List.getElem_take]
    omega)
  rw [hlen] at hrd
  rw [hrd, Option.bind_some]
  simp only
  rw [show min skip n = skip by omega]
  have := list_zero_ends code skip e t1 (by omega)
    (fun k hk => by rw [hcode]; exact lehmerSpec_id [] p 0 skip (by simp) (fun j hj => by rw [Nat.zero_add]; exact hfix j hj) k hk)
    (fun k hk1 hk2 => t3 k hk1 (by omega))
  rw [e2] at this
  rw [this, e3]; rfl

/-- Reading any tokens at all either fails or yields a permutation of the right size. -/
theorem C08_tokens_permutation (n skip : Nat) (ts p rest : List Nat) (h2 : n ≤ 2 ^ 30)
    (h : readPermutation skip n ts = some (p, rest)) : p.Perm (List.range n) := by
  cases ts with
  | nil => simp [readPermutation] at h
  | cons v ts =>
    simp only [readPermutation] at h
    split at h
    · cases h
    · rename_i he
      obtain ⟨⟨cs, r'⟩, h3, h4⟩ := Option.bind_eq_some_iff.mp h
      obtain ⟨q, h5, h6⟩ := Option.map_eq_some_iff.mp h4
      simp only [Prod.mk.injEq] at h6
      rw [← h6.1]
      have hl := readCodes_length h3
      dsimp only at h5
      have hlen : (List.replicate (min skip n) 0 ++ cs ++ List.replicate (n - min skip n - cs.length) 0).length = n := by
        simp; omega
      have := (C08_decodes_to_permutation _ q (by omega) h5).1
      rwa [hlen] at this

example : computeLehmer [0, 1, 4, 2, 5, 3] = some [0, 0, 2, 0, 1, 0] ∧ tokenize [0, 1, 4, 2, 5, 3] 2 = some [3, 2, 0, 1] ∧
    readPermutation 2 6 [3, 2, 0, 1, 77] = some ([0, 1, 4, 2, 5, 3], [77]) ∧ decodeLehmer [1, 2, 0] = none := by decide
example : [0, 1, 4, 2, 5, 3].Perm (List.range 6) := by decide

end Jxl.Props
