import Verif.Model.MaTree
import Verif.Model.EntropyStream
import Verif.Model.FastPixels
/-!
# Reading and writing a decision tree as an entropy-coded stream (lib/jxl/modular/encoding/dec_ma.cc, lib/jxl/enc_modular.cc)
-/
namespace Jxl.TreeStream
open Jxl.MaTree

/-- `ReadHybridUint(ctx, br, context_map)` (dec_ans.h:381-384) as the reader of a tree. -/
def contextReader (c : Stream.Code) (mult : Nat) : Reader (Stream.Out Stream.St) where
  read r x :=
    match c.map[x]? with
    | none => (0, .ub)
    | some h => (FastCode.entropyReader c mult).read r h
  ok r := (FastCode.entropyReader c mult).ok r

/-- The only symbol of an alias table, or -1. -/
def onlySymbol : List Alias.Entry → Int
  | [] => -1
  | e :: es => if e.cutoff = 0 ∧ ∀ x ∈ es, x.cutoff = 0 ∧ x.right = e.right then e.right else -1

/-- `degenerate_symbols` (dec_ans.cc:200, 256-264) of cluster `h`: the symbol of a histogram that has only one, computed from its table. -/
def degenerate (t : Stream.Tables) (h : Nat) : Int :=
  match t with
  | .huff _ => -1
  | .ans _ ts => onlySymbol (ts.getD h [])

/-- The end of `DecodeTree` (dec_ma.cc:176-179) and the position afterwards. -/
def finishTree : Option (Option (List Node × Stream.Out Stream.St)) → Stream.Out (List Node × List Bool)
  | none => .ub
  | some none => .bad
  | some (some (t, r)) => r.bind fun st => if Stream.finalOk st then .ok (t, st.bits) else .bad

/-- `DecodeTree` (dec_ma.cc:162-182).  Bits missing at the end make the whole fail here; the code sees zeros and notices before the next node,
or later. -/
def readTree (env : Stream.Env) (limit : Nat) (s : List Bool) : Stream.Out (List Node × List Bool) :=
  (Stream.decodeHistograms env 6 s).bind fun (c, s) =>
    (Stream.req c.map[kPropertyContext]?).bind fun h =>
      if degenerate c.tables h > 0 then .bad
      else (Stream.start c.tables s).bind fun st => finishTree (decodeTree (contextReader c 0) (.ok st) (min limit kMaxTreeSize))

/-- The tree as the encoder stores it (enc_modular.cc:1249-1252, 1287-1317 with enc_ans.cc:1080-1321): the header of the stream of its tokens,
then the tokens; `toks` is what LZ77 made of them. -/
def writeTree (mem : Nat → List Alias.Entry) (layers : List Stream.Layer) (p : Stream.Plan) (toks : List Ans.Token) : Option (List Bool) := do
  let (b, i) ← Stream.writeHeader mem layers p
  let t ← Stream.writeTokens p i 0 toks
  some (b ++ t)

end Jxl.TreeStream
