import Verif.Lemmas.Bundle
/-!
# C06: header bundles are read back as written, unknown extensions are skipped

Full claim: any bundle accepted by the encoder is read back unchanged, whatever its nesting, and unknown extension
payloads are skipped exactly.  The code violates it when a *nested* bundle carries extensions
(`C06_nested_extensions_rejected`), and loses a float within 1E-6 of its default in an all-default bundle
(`C06_near_default_replaced`); the `_partial` theorems cover every bundle in which only the outermost bundle carries
extensions.
-/
namespace Jxl.Props
open Bundle

/-- Every bundle layout and every contents without extensions present: what is read back agrees on all visited fields,
exactly the written bits are consumed, and the allotment requested from the writer is their number. -/
theorem C06_round_trip_partial (near : Nat → Nat → Bool) (dflt : Nat → Nat) (p : Prog) (e e0 : Env) (b rest : List Bool)
    (total pos : Nat) (hd : HasDefaults dflt p) (hn : NoExt p e) (hg : Good near p e) (hc : Causal p e [])
    (hw : write near p e = some (b, total)) :
    total = b.length ∧ ∃ env', read p e0 (b ++ rest) pos = some (env', rest) ∧ ∀ f ∈ known p e [], env' f = e f := by
  simp only [write, Option.bind_eq_bind] at hw
  obtain ⟨c, h1, hw⟩ := Option.bind_eq_some_iff.mp hw
  obtain ⟨⟨x, t⟩, h2, hw⟩ := Option.bind_eq_some_iff.mp hw
  obtain ⟨b', h3, hw⟩ := Option.bind_eq_some_iff.mp hw
  simp only [Option.some.injEq, Prod.mk.injEq] at hw
  obtain ⟨rfl, rfl⟩ := hw
  obtain ⟨g1, g2, _⟩ := canP_writeP near x p e {} c b' hn h1 h3
  refine ⟨?_, ?_⟩
  · rw [sizes, if_neg (by rw [g2]; simp)] at h2
    simp only [Option.some.injEq, Prod.mk.injEq] at h2
    rw [← h2.2, g1]; simp
  · obtain ⟨env', r1, a1⟩ := readP_writeP near dflt x p e [] { env := e0, s := b' ++ rest, pos := pos } b' rest hd hn h3 hg hc
      (fun f hf => by cases hf) rfl (Or.inl rfl)
    refine ⟨env', ?_, a1⟩
    simp only [Bundle.read, r1, Option.bind_eq_bind, Option.bind_some, if_true]

/-- A newer encoder writes extension fields `body` and then `more`; a reader whose bundle only knows `body` recovers
every field it knows and continues exactly after the bundle.  (`more = skip`: reader and writer agree.) -/
theorem C06_extensions_partial (near : Nat → Nat → Bool) (dflt : Nat → Nat) (h body more : Prog) (f : Nat)
    (e e0 : Env) (b rest : List Bool) (total pos : Nat) (hf : e f ≠ 0)
    (hd : HasDefaults dflt (.seq h (.ext f body))) (hn : NoExt h e) (hb : ExtFree body) (hm : ExtFree more)
    (hg : Good near (.seq h (.ext f body)) e) (hc : Causal (.seq h (.ext f body)) e [])
    (hlen : pos + b.length < 2 ^ 64) :
    (write near (.seq h (.ext f (.seq body more))) e = some (b, total) →
      total = b.length ∧ ∃ env', read (.seq h (.ext f body)) e0 (b ++ rest) pos = some (env', rest) ∧
        ∀ g ∈ known (.seq h (.ext f body)) e [], env' g = e g) ∧
    (write near (.allDefault (.seq h (.ext f (.seq body more)))) e = some (b, total) →
      total = b.length ∧ ∃ env', read (.allDefault (.seq h (.ext f body))) e0 (b ++ rest) pos = some (env', rest) ∧
        ∀ g ∈ known (.seq h (.ext f body)) e [], env' g = e g) := by
  constructor
  · intro hw
    simp only [write, Option.bind_eq_bind] at hw
    obtain ⟨c, h1, hw⟩ := Option.bind_eq_some_iff.mp hw
    obtain ⟨⟨x, t⟩, h2, hw⟩ := Option.bind_eq_some_iff.mp hw
    obtain ⟨b', h3, hw⟩ := Option.bind_eq_some_iff.mp hw
    simp only [Option.some.injEq, Prod.mk.injEq] at hw
    obtain ⟨rfl, rfl⟩ := hw
    obtain ⟨g1, env', r', g2, g3, g4, g5, _, g6⟩ := ext_main near dflt h body more f e []
      { env := e0, s := b' ++ rest, pos := pos } {} c x t b' rest hf hd hn hb hm hg hc (fun f hf => by cases hf) h1 rfl h2 h3
      rfl rfl rfl hlen
    refine ⟨by simpa using g1, env', ?_, g6⟩
    simp only [Bundle.read, g2, Option.bind_eq_bind, Option.bind_some]
    rw [g5, if_pos rfl, g3, g4]
  · intro hw
    have hnd : isDefault near (.seq h (.ext f (.seq body more))) e = false := by
      simp [isDefault, hf]
    simp only [write, Option.bind_eq_bind] at hw
    obtain ⟨c, h1, hw⟩ := Option.bind_eq_some_iff.mp hw
    obtain ⟨⟨x, t⟩, h2, hw⟩ := Option.bind_eq_some_iff.mp hw
    obtain ⟨b', h3, hw⟩ := Option.bind_eq_some_iff.mp hw
    simp only [Option.some.injEq, Prod.mk.injEq] at hw
    obtain ⟨rfl, rfl⟩ := hw
    rw [canP, hnd, if_neg (by decide)] at h1
    rw [writeP, hnd, if_neg (by decide)] at h3
    obtain ⟨b1, h5, h4⟩ := Option.map_eq_some_iff.mp h3
    subst h4
    simp only [List.length_append, bitsOf_length] at hlen
    obtain ⟨g1, env', r', g2, g3, g4, g5, _, g6⟩ := ext_main near dflt h body more f e []
      { env := e0, s := b1 ++ rest, pos := pos + 1 } { n := 1 } c x t b1 rest hf hd hn hb hm hg hc (fun f hf => by cases hf) h1
      rfl h2 h5 rfl rfl rfl (by dsimp only; omega)
    refine ⟨by simpa using g1, env', ?_, g6⟩
    have hr : readP (.allDefault (.seq h (.ext f body))) { env := e0, s := bitsOf 1 0 ++ b1 ++ rest, pos := pos } =
        readP (.seq h (.ext f body)) { env := e0, s := b1 ++ rest, pos := pos + 1 } := by
      have h0 : rdBits 1 (bitsOf 1 0 ++ (b1 ++ rest)) = some (0, b1 ++ rest) := rdBits_append (by decide) _
      rw [List.append_assoc]
      conv => lhs; unfold readP
      rw [h0, Option.bind_some]
      show readP (h.seq (Prog.ext f body)) (RS.adv { env := e0, s := bitsOf 1 0 ++ (b1 ++ rest), pos := pos } (b1 ++ rest)) = _
      rw [RS.adv_append _ (bitsOf 1 0) _ rfl]
      simp only [bitsOf_length]
    simp only [Bundle.read, hr, g2, Option.bind_eq_bind, Option.bind_some]
    rw [g5, if_pos rfl, g3, g4]

/-- Two bundles side by side (a bundle nested in a larger one), each of which reads its own bits correctly: an inner
bundle with an unknown 5-bit extension, and an outer one without extensions. The combination is rejected, because the
reader keeps one `pos_after_ext_size_`/`total_extension_bits_` for the whole visit. -/
theorem C06_nested_extensions_rejected :
    ∃ b1 b2 : List Bool, ∃ t1 t2 : Nat,
      write (· == ·) (.ext 0 (.bits 5 0 2)) (fun i => if i = 0 then 1 else if i = 2 then 21 else 0) = some (b1, t1) ∧
      write (· == ·) (.ext 1 .skip) (fun _ => 0) = some (b2, t2) ∧
      (∀ rest, (read (.ext 0 .skip) (fun _ => 0) (b1 ++ rest) 0).map (·.2) = some rest) ∧
      (∀ rest, (read (.ext 1 .skip) (fun _ => 0) (b2 ++ rest) 0).map (·.2) = some rest) ∧
      (∀ rest, read (.seq (.ext 0 .skip) (.ext 1 .skip)) (fun _ => 0) (b1 ++ b2 ++ rest) 0 = none) := by
  refine ⟨_, _, _, _, rfl, rfl, ?_, ?_, ?_⟩
  · intro rest
    have := (C06_extensions_partial (· == ·) (fun _ => 0) .skip .skip (.bits 5 0 2) 0
      (fun i => if i = 0 then 1 else if i = 2 then 21 else 0) (fun _ => 0)
      (U64.write 1 ++ U64.write 5 ++ bitsOf 5 21) rest 17 0 (by decide) (by simp [HasDefaults]) trivial trivial trivial
      (by simp [Good]) (by simp [Causal]) (by decide)).1 (by decide)
    obtain ⟨_, env', h, _⟩ := this
    have e : read (.seq .skip (.ext 0 .skip)) (fun _ => 0) (U64.write 1 ++ U64.write 5 ++ bitsOf 5 21 ++ rest) 0 =
      read (.ext 0 .skip) (fun _ => 0) (U64.write 1 ++ U64.write 5 ++ bitsOf 5 21 ++ rest) 0 := rfl
    rw [e] at h
    exact congrArg (Option.map (·.2)) h
  · intro rest; rfl
  · intro rest
    have h5 : ∀ l : List Bool, U64.read (U64.write 5 ++ l) = some (5, l) := fun l => U64.write_read 5 (by decide) l
    have h1 : ∀ l : List Bool, U64.read (U64.write 1 ++ l) = some (1, l) := fun l => U64.write_read 1 (by decide) l
    have h0 : ∀ l : List Bool, U64.read (U64.write 0 ++ l) = some (0, l) := fun l => U64.write_read 0 (by decide) l
    show read _ _ (U64.write 1 ++ U64.write 5 ++ bitsOf 5 21 ++ U64.write 0 ++ rest) 0 = none
    have hp : popCount 1 = 1 := by decide
    simp only [Bundle.read, readP, beginExt, List.append_assoc, h1, RS.store, RS.adv, Option.map_some, Option.bind_eq_bind,
      Option.bind_some, upd_self, hp, readSizes, h5]
    have l1 : (U64.write 1).length = 6 := by decide
    have l5 : (U64.write 5).length = 6 := by decide
    have l0 : (U64.write 0).length = 2 := by decide
    simp [l1, l5, l0, endExt, h0, upd_self]

/-- A float that only counts as default (`near`) is replaced by the default: the value is not read back. -/
theorem C06_near_default_replaced (near : Nat → Nat → Bool) (v d : Nat) (h : near v d = true) (hv : v ≠ d) :
    ∃ b t, write near (.allDefault (.f16 d 0)) (fun _ => v) = some (b, t) ∧
      ∀ rest e0, ∃ env', read (.allDefault (.f16 d 0)) e0 (b ++ rest) 0 = some (env', rest) ∧ env' 0 ≠ v := by
  refine ⟨bitsOf 1 1, 1, ?_, fun rest e0 => ⟨upd e0 0 d, ?_, ?_⟩⟩
  · simp [write, canP, isDefault, h, sizes, writeP]
  · simp only [Bundle.read, readP]
    rw [rdBits_append (by decide)]
    simp [RS.adv, setDefault]
  · rw [upd_self]; exact fun h => hv h.symm

/-- Hypotheses of `C06_round_trip_partial` hold for a bundle with a conditional, a nested all-default bundle, a float
and a counted loop. -/
example :
    let p : Prog := .allDefault (.seq (.u32 ⟨U32.val 1, U32.val 3, U32.bitsOffset 4 5, U32.bitsOffset 8 40⟩ 1 0)
      (.seq (.cond [0] (fun l => l == [7]) (.allDefault (.seq (.bits 3 0 1) (.f16 0 2))))
        (.seq (.rep [1] (fun l => l.sum) (fun i => .bits 2 0 (10 + i))) (.ext 5 .skip))))
    let e : Env := fun i => if i = 0 then 7 else if i = 1 then 3 else if i = 2 then 0x3F800000 else if i ≥ 10 then 2 else 0
    HasDefaults (fun i => if i = 0 then 1 else 0) p ∧ NoExt p e ∧ Good (· == ·) p e ∧ Causal p e [] ∧
      (write (· == ·) p e).isSome := by
  refine ⟨?_, ?_, ?_, ?_, by decide⟩
  · simp [HasDefaults]
  · simp [NoExt]
  · simp [Good]
    exact ⟨0x3C00, by decide, by decide, by decide⟩
  · simp [Causal, known, Occ]

/-- Hypotheses of `C06_extensions_partial` hold: two extension bits set, one extra field unknown to the reader. -/
example : (0 + 53 < 2 ^ 64) ∧ (fun (i : Nat) => if i = 0 then (5 : Nat) else 9) 0 ≠ 0 ∧
    (write (· == ·) (.allDefault (.seq (.bits 4 0 1) (.ext 0 (.seq (.bits 4 0 2) (.u64 0 3)))))
      (fun i => if i = 0 then 5 else 9)).isSome := by decide

end Jxl.Props
