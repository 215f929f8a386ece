import Verif.Spec.JxlpFile
import Verif.Lemmas.Container
namespace Jxl.Container

theorem dropL (n : Nat) (l r : List UInt8) (h : l.length = n) : (l ++ r).drop n = r := by
  subst h; exact List.drop_left

theorem takeL (n : Nat) (l r : List UInt8) (h : l.length = n) : (l ++ r).take n = l := by
  subst h; exact List.take_left

theorem be32_length (n : Nat) : (be32 n).length = 4 := rfl

theorem be_be32 (n : Nat) (h : n < 2 ^ 32) : be (be32 n) = n := by
  simp only [be32, be, List.length_cons, List.length_nil, UInt8.toNat_ofNat', Nat.reduceAdd]
  omega

theorem box_length (ty c : List UInt8) (h : ty.length = 4) : (box ty c).length = 8 + c.length := by
  simp [box, be32_length, h]; omega

theorem chars_length4 : (chars "jxlp").length = 4 ∧ (chars "ftyp").length = 4 ∧
    (chars "JXL ").length = 4 := by decide

theorem boxHeader_box (ty c r : List UInt8) (h : ty.length = 4) (hs : 8 + c.length < 2 ^ 32) :
    boxHeader (box ty c ++ r) = some (ty, 8, 8 + c.length) := by
  have e1 : (box ty c ++ r).take 4 = be32 (8 + c.length) := by
    simp only [box, List.append_assoc]
    rw [List.take_append_of_le_length (by rw [be32_length]; omega), List.take_of_length_le (by rw [be32_length]; omega)]
  have e2 : ((box ty c ++ r).drop 4).take 4 = ty := by
    simp only [box, List.append_assoc]
    have : (be32 (8 + c.length) ++ (ty ++ (c ++ r))).drop 4 = ty ++ (c ++ r) := dropL _ _ _ rfl
    rw [this, ← h, List.take_left]
  have hl : ¬ (box ty c ++ r).length < 8 := by
    rw [List.length_append, box_length _ _ h]; omega
  unfold boxHeader
  rw [if_neg hl, e1, be_be32 _ hs, if_neg (by omega), e2]

theorem drop_box8 (ty c r : List UInt8) (h : ty.length = 4) : (box ty c ++ r).drop 8 = c ++ r := by
  simp only [box, List.append_assoc]
  have : (be32 (8 + c.length) ++ (ty ++ (c ++ r))).drop 8 = (ty ++ (c ++ r)).drop 4 := rfl
  rw [this, ← h, List.drop_left]

theorem drop_box (ty c r : List UInt8) (h : ty.length = 4) :
    (box ty c ++ r).drop (8 + c.length) = r := by
  rw [← box_length ty c h, List.drop_left]

/-- The pieces alone decide what is assembled. -/
def assemble : Asm → List Piece → Out
  | a, [] => (a, false)
  | a, p :: t =>
    if a.last = true ∨ p.idx < a.next then (a, true)
    else if p.idx = a.next then
      assemble (settle { a with
        next := a.next + 1, last := a.last || p.isLast, out := a.out ++ p.payload }) t
    else if a.version = 0 then (a, true)
    else if a.early.any (fun q => q.idx == p.idx) then (a, true)
    else assemble { a with early := a.early ++ [p] } t

theorem walk_box (f at' n : Nat) (a : Asm) (ty c r : List UInt8) (h : ty.length = 4)
    (hs : 8 + c.length < 2 ^ 32) (hat : at' + (8 + c.length) < 2 ^ 64)
    (hb : ty = chars "brob" → 4 ≤ c.length)
    (hn : ¬ ((n = 1 ∧ ty ≠ chars "ftyp") ∨ (n ≠ 1 ∧ ty = chars "ftyp"))) :
    walk (f + 1) at' n a (box ty c ++ r) =
      boxBody ty (some c.length) (c ++ r) a
        (fun a' => walk f (at' + (8 + c.length)) (n + 1) a' r) := by
  rw [walk, boxHeader_box ty c r h hs]
  dsimp only
  rw [if_neg (by omega), if_neg, if_neg hn, if_neg (by omega), drop_box8 _ _ _ h, drop_box _ _ _ h]
  · rw [show 8 + c.length - 8 = c.length by omega]
    congr 1
    funext a'
    rw [if_neg (by omega)]
  · rintro ⟨h1, h2⟩
    have := hb h1
    rw [List.length_append, box_length _ _ h] at h2
    omega

theorem piece_body (p : Piece) (r : List UInt8) (a : Asm) (k : Asm → Out)
    (hi : p.idx < 2 ^ 31) :
    partialBody (some (pieceContent p).length) (pieceContent p ++ r) a k =
    if a.last = true ∨ p.idx < a.next then (a, true)
    else if p.idx = a.next then
      k (settle { a with
        next := a.next + 1, last := a.last || p.isLast, out := a.out ++ p.payload })
    else if a.version = 0 then (a, true)
    else if a.early.any (fun q => q.idx == p.idx) then (a, true)
    else k { a with early := a.early ++ [p] } := by
  have hlen : (pieceContent p).length = 4 + p.payload.length := by
    simp [pieceContent, be32_length]
  have hw : be ((pieceContent p ++ r).take 4) = p.idx + if p.isLast then 2 ^ 31 else 0 := by
    have : (pieceContent p ++ r).take 4 = be32 (p.idx + if p.isLast then 2 ^ 31 else 0) := by
      simp only [pieceContent, List.append_assoc]
      rw [List.take_append_of_le_length (by rw [be32_length]; omega),
        List.take_of_length_le (by rw [be32_length]; omega)]
    rw [this, be_be32]
    split <;> omega
  have hd : (pieceContent p ++ r).drop 4 = p.payload ++ r := by
    simp only [pieceContent, List.append_assoc]
    exact dropL _ _ _ rfl
  have hm : (p.idx + if p.isLast then 2 ^ 31 else 0) % 2 ^ 31 = p.idx := by
    split <;> omega
  have hfl : decide (2 ^ 31 ≤ p.idx + if p.isLast then 2 ^ 31 else 0) = p.isLast := by
    cases p.isLast <;> simp <;> omega
  unfold partialBody
  by_cases hl : a.last = true
  · rw [if_pos hl, if_pos (.inl hl)]
  rw [if_neg hl, if_neg (by rw [List.length_append, hlen]; omega),
    if_neg (by simp only [tooShort, hlen, decide_eq_true_eq]; omega)]
  dsimp only
  rw [hw, hm, hd, hfl]
  by_cases h1 : p.idx < a.next
  · rw [if_pos h1, if_pos (.inr h1)]
  rw [if_neg h1, if_neg (show ¬ (a.last = true ∨ p.idx < a.next) by
    rintro (h | h); exact hl h; exact h1 h)]
  by_cases h2 : p.idx = a.next
  · rw [if_pos h2, if_pos h2]
    unfold codeBody
    simp only [Option.map_some, hlen, Nat.add_sub_cancel_left]
    rw [if_pos (by rw [List.length_append]; omega), List.take_left]
  rw [if_neg h2, if_neg h2]
  by_cases h3 : a.version = 0
  · rw [if_pos h3, if_pos h3]
  rw [if_neg h3, if_neg h3]
  by_cases h4 : (a.early.any fun q => q.idx == p.idx) = true
  · rw [if_pos h4, if_pos h4]
  rw [if_neg h4, if_neg h4]
  unfold earlyBody
  simp only [Option.map_some, hlen, Nat.add_sub_cancel_left]
  rw [if_pos (by rw [List.length_append]; omega), List.take_left]

theorem item_length (i : Item) (h : i.ok) : 8 ≤ i.bytes.length := by
  cases i with
  | part p => rw [Item.bytes, box_length _ _ chars_length4.1]; omega
  | other ty c => rw [Item.bytes, box_length _ _ h.1]; omega

theorem walk_body : ∀ (items : List Item) (f at' n : Nat) (a : Asm), (∀ i ∈ items, i.ok) →
    2 ≤ n → items.length < f → at' + (body items).length < 2 ^ 64 →
    walk f at' n a (body items) = assemble a (parts items) := by
  intro items
  induction items with
  | nil =>
    intro f at' n a _ _ hf _
    obtain ⟨f, rfl⟩ : ∃ g, f = g + 1 := ⟨f - 1, by simp at hf; omega⟩
    rw [walk]
    rfl
  | cons i t ih =>
    intro f at' n a hok hn hf hat
    obtain ⟨f, rfl⟩ : ∃ g, f = g + 1 := ⟨f - 1, by simp at hf; omega⟩
    have hi := hok i (by simp)
    have ht : ∀ i ∈ t, i.ok := fun j hj => hok j (by simp [hj])
    have hf' : t.length < f := by simpa using hf
    cases i with
    | part p =>
      obtain ⟨h1, h2⟩ := hi
      have hlen : (pieceContent p).length = 4 + p.payload.length := by
        simp [pieceContent, be32_length]
      simp only [body, Item.bytes, List.length_append, box_length _ _ chars_length4.1] at hat
      rw [body, Item.bytes, walk_box _ _ _ _ _ _ _ chars_length4.1 (by omega) (by omega)
        (by intro h; exact absurd h (by decide))
        (by rintro (⟨h, _⟩ | ⟨_, h⟩); omega; exact absurd h (by decide))]
      unfold boxBody
      rw [if_neg (by decide), if_neg (by decide), if_pos rfl, piece_body _ _ _ _ h1, parts, assemble]
      rw [ih f _ _ _ ht (by omega) hf' (by omega), ih f _ _ _ ht (by omega) hf' (by omega)]
    | other ty c =>
      obtain ⟨h1, h2, h3, h4, h5, h6⟩ := hi
      simp only [body, Item.bytes, List.length_append, box_length _ _ h1] at hat
      rw [body, Item.bytes, walk_box _ _ _ _ _ _ _ h1 (by omega) (by omega) h6
        (by rintro (⟨h, _⟩ | ⟨_, h⟩); omega; exact absurd h h2)]
      unfold boxBody
      rw [if_neg h2, if_neg h3, if_neg h4, parts]
      dsimp only
      exact ih f _ _ _ ht (by omega) hf' (by omega)

theorem body_length : ∀ (items : List Item), (∀ i ∈ items, i.ok) →
    items.length ≤ (body items).length := by
  intro items
  induction items with
  | nil => intro _; simp
  | cons i t ih =>
    intro h
    have := ih fun j hj => h j (by simp [hj])
    have := item_length i (h i (by simp))
    simp only [body, List.length_append, List.length_cons]
    omega

theorem reading_file (v : Nat) (items : List Item) (hv : v ≤ 1) (hok : ∀ i ∈ items, i.ok)
    (hlen : (jxlpFile v items).length < 2 ^ 64) :
    reading (jxlpFile v items) = assemble { version := v } (parts items) ∧
      bare (jxlpFile v items) = false ∧ boxed (jxlpFile v items) = true := by
  have hb : bare (jxlpFile v items) = false := by
    have : (jxlpFile v items).take 2 = [0, 0] := rfl
    unfold bare; rw [this]; rfl
  have hx : boxed (jxlpFile v items) = true := by
    have : (jxlpFile v items).take 12 = box (chars "JXL ") [0xd, 0xa, 0x87, 0xa] := by
      unfold jxlpFile
      exact takeL _ _ _ (by decide)
    unfold boxed; rw [this]; decide
  refine ⟨?_, hb, hx⟩
  have hbl := body_length items hok
  have hfl : (jxlpFile v items).length = 12 + (20 + (body items).length) := by
    unfold jxlpFile
    rw [List.length_append, List.length_append, box_length _ _ chars_length4.2.2,
      box_length _ _ chars_length4.2.1]
    rfl
  unfold reading
  rw [hb, hx]
  simp only [if_true, Bool.false_eq_true, if_false]
  rw [show (jxlpFile v items).length + 1 = (30 + (body items).length) + 1 + 1 + 1 by omega]
  unfold jxlpFile
  rw [walk_box _ _ _ _ _ _ _ chars_length4.2.2 (by decide) (by decide)
    (by intro h; exact absurd h (by decide)) (by decide)]
  unfold boxBody
  rw [if_neg (by decide), if_neg (by decide), if_neg (by decide)]
  dsimp only
  have hc : (chars "jxl " ++ be32 v ++ chars "jxl ").length = 12 := rfl
  rw [walk_box _ _ _ _ _ _ _ chars_length4.2.1 (by rw [hc]; decide) (by rw [hc]; simp)
    (by intro h; exact absurd h (by decide)) (by decide)]
  unfold boxBody
  rw [if_pos rfl]
  unfold ftypBody
  rw [hc]
  have e1 : (chars "jxl " ++ be32 v ++ chars "jxl " ++ body items).take 4 = chars "jxl " := by
    simp only [List.append_assoc]
    exact takeL _ _ _ (by rfl)
  have e2 : ((chars "jxl " ++ be32 v ++ chars "jxl " ++ body items).drop 4).take 4 = be32 v := by
    simp only [List.append_assoc]
    have : (chars "jxl " ++ (be32 v ++ (chars "jxl " ++ body items))).drop 4 =
      be32 v ++ (chars "jxl " ++ body items) := dropL _ _ _ (by rfl)
    rw [this]
    exact takeL _ _ _ (by rfl)
  rw [e1, e2, be_be32 v (by omega)]
  rw [if_neg (by simp), if_neg (by rw [List.length_append, hc]; omega),
    if_neg (by simp), if_neg (by omega)]
  exact walk_body items _ _ _ _ hok (by omega) (by omega) (by
    simp only [List.length_cons, List.length_nil]; omega)

end Jxl.Container
