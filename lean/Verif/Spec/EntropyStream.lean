import Verif.Model.EntropyStream
import Verif.Props.Histogram
/-!
# What an entropy-coded stream stands for, and which choices of the encoder are sound
-/
namespace Jxl.Stream
open Ans (Token)

/-- `Stands m copies dctx h ts vs`: after the values `h`, the tokens `ts` stand for the values `vs`, each with its context.  A literal
stands for itself.  A copy is a length in the context of the first value it stands for, followed by a distance in the context `dctx`; it
stands for the values that copying yields, whatever their contexts. -/
inductive Stands (m : Lz77.Meaning) (copies : Bool) (dctx : Nat) : List Nat → List Token → List (Nat × Nat) → Prop
  | done (h) : Stands m copies dctx h [] []
  | literal {h c v ts vs} : Stands m copies dctx (h ++ [v]) ts vs → Stands m copies dctx h (⟨false, c, v⟩ :: ts) ((c, v) :: vs)
  | copy {h x xs l d ts vs} : copies = true →
      h ++ (x :: xs).map Prod.snd = Lz77.copyFrom (l + m.minLen) (Lz77.usable (m.distance d) h.length) h →
      Stands m copies dctx (h ++ (x :: xs).map Prod.snd) ts vs →
      Stands m copies dctx h (⟨true, x.1, l⟩ :: ⟨false, dctx, d⟩ :: ts) (x :: xs ++ vs)

/-- The weight of a symbol in a cluster; nothing else than symbols of positive weight can be written. -/
def weight (s : Stats) (h y : Nat) : Nat :=
  match s with
  | .ans _ hs => (hs[h]?.map fun h => h.counts.getD y 0).getD 0
  | .huff cs => (cs[h]?.map fun c => c.getD y 0).getD 0

/-- The cluster of a token. -/
def cluster (p : Plan) (off : Nat) (t : Token) : Nat := p.map.getD (off + t.ctx) 0

/-- The symbol of a token: that of its value, and for a length shifted by the first symbol of lengths. -/
def symbol (p : Plan) (off : Nat) (t : Token) : Nat :=
  match t.isLen, p.lz with
  | true, some z => (Hybrid.encode z.lengthConfig t.value).1 + z.minSymbol
  | _, _ => (Hybrid.encode (p.config.getD (cluster p off t) ⟨0, 0, 0⟩) t.value).1

/-- A token that can be written: its symbol was counted, and only lengths have symbols from `minSymbol` on. -/
structure TokenOk (p : Plan) (off : Nat) (t : Token) : Prop where
  value : t.value < 2 ^ 32
  ctx : off + t.ctx < p.map.length
  counted : 0 < weight p.stats (cluster p off t) (symbol p off t)
  length : t.isLen = true → p.lz ≠ none
  literal : t.isLen = false → ∀ z, p.lz = some z → symbol p off t < z.minSymbol

/-- The logarithm of the largest alphabet, which also limits the codings of integers. -/
def Stats.la : Stats → Nat
  | .ans la _ => la
  | .huff _ => 15

/-- Sound statistics: the normalised histograms of the encoder; for prefix codes the limits of C54. -/
def StatsOk : Stats → Prop
  | .ans la hs => 5 ≤ la ∧ la ≤ 8 ∧ ∀ h ∈ hs, Props.Storable h ∧ h.size ≤ 2 ^ la
  | .huff cs => ∀ c ∈ cs, c.length ≤ 2 ^ 15 ∧ c.sum ≤ 2 ^ 30 ∧ c.countP (· ≠ 0) ≤ 1292

/-- A sound choice of LZ77 parameters: storable, and a coding of lengths that its header determines. -/
structure LzOk (z : Lz) : Prop where
  minSymbol : (U32.write minSymbolEnc z.minSymbol).isSome = true ∧ z.minSymbol < 2 ^ 32
  minLength : (U32.write minLengthEnc z.minLength).isSome = true ∧ z.minLength < 2 ^ 32
  config : z.lengthConfig.msb + z.lengthConfig.lsb ≤ z.lengthConfig.splitExp ∧ z.lengthConfig.splitExp ≤ 8
  exact : z.lengthConfig.splitExp = 8 → z.lengthConfig = ⟨8, 0, 0⟩

/-- A sound choice for a stream, apart from how its context map is stored. -/
structure PlanOk (p : Plan) : Prop where
  lz : ∀ z, p.lz = some z → LzOk z
  config : ∀ c ∈ p.config, c.msb + c.lsb ≤ c.splitExp ∧ c.splitExp ≤ p.stats.la
  configs : p.config.length = p.clusters
  stats : StatsOk p.stats
  nonempty : p.map ≠ []
  inMap : ∀ x ∈ p.map, x < p.clusters
  allUsed : ∀ h < p.clusters, h ∈ p.map
  few : p.clusters ≤ 256

/-- The meaning of a stream's copies; rows are `mult` values long. -/
def Plan.meaning (p : Plan) (mult : Nat) : Lz77.Meaning := Lz77.meaning ((p.lz.map (·.minLength)).getD 0) mult

/-- Tokens that can be written and stand for the given values in the given contexts. -/
structure Tokenised (p : Plan) (off mult : Nat) (ts : List Token) (vs : List (Nat × Nat)) : Prop where
  ok : ∀ t ∈ ts, TokenOk p off t
  stands : ∃ dctx, (p.lz ≠ none → off + dctx + 1 = p.map.length) ∧ Stands (p.meaning mult) p.lz.isSome dctx [] ts vs
  ctx : ∀ v ∈ vs, off + v.1 < p.map.length
  count : vs.length < 2 ^ 32

/-- Sound choices for a stream and the streams of context maps inside it: if the map is entropy coded, the next layer is a stream of one
context (LZ77 adds one for distances) whose tokens stand for the symbols of the map; for maps of two entries it does not use LZ77. -/
def Sound : List Layer → Plan → Prop
  | layers, p => PlanOk p ∧ (p.coded →
      match layers with
      | [] => False
      | l :: ls => Sound ls l.plan ∧ l.plan.map.length = (if l.plan.lz.isSome then 2 else 1) ∧ (p.map.length ≤ 2 → l.plan.lz = none) ∧
          ∃ syms, p.symbols = some syms ∧ Tokenised l.plan 0 0 l.tokens (syms.map fun y => (0, y)))

/-- Sizes of the memory that is used before anything was stored to it, and vectors of at most 64 bytes. -/
structure EnvOk (e : Env) : Prop where
  t5 : e.t5.length = 32
  alias : ∀ la i, (e.alias la i).length = 2 ^ la
  pad : e.pad.length = 64
  k : e.k ≤ 6

end Jxl.Stream
