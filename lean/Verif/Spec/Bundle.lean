import Verif.Model.Bundle
/-!
# Vocabulary for statements about bundles

`known p e K`: the fields whose value has been determined once `p` was visited on a bundle with contents `e`, when
the fields in `K` were known before.  `Causal`: conditions, checks and counts only look at fields already known.
-/
namespace Jxl.Bundle

def known : Prog → Env → List Nat → List Nat
  | .skip, _, K => K
  | .seq a b, e, K => known b e (known a e K)
  | .bits _ _ f, _, K => f :: K
  | .u32 _ _ f, _, K => f :: K
  | .u64 _ f, _, K => f :: K
  | .f16 _ f, _, K => f :: K
  | .enum _ _ f, _, K => f :: K
  | .cond deps c p, e, K => if c (deps.map e) then known p e K else K
  | .check _ _, _, K => K
  | .allDefault p, e, K => known p e K
  | .ext f p, e, K => known p e (f :: K)
  | .rep deps n p, e, K => (List.range (n (deps.map e))).foldl (fun K i => known (p i) e K) K

/-- The field occurs somewhere in the program. -/
def Occ (f : Nat) : Prog → Prop
  | .skip => False
  | .seq a b => Occ f a ∨ Occ f b
  | .bits _ _ g => f = g
  | .u32 _ _ g => f = g
  | .u64 _ g => f = g
  | .f16 _ g => f = g
  | .enum _ _ g => f = g
  | .cond _ _ p => Occ f p
  | .check _ _ => False
  | .allDefault p => Occ f p
  | .ext g p => f = g ∨ Occ f p
  | .rep _ _ p => ∃ i, Occ f (p i)

def Causal : Prog → Env → List Nat → Prop
  | .seq a b, e, K => Causal a e K ∧ Causal b e (known a e K)
  | .cond deps c p, e, K => (∀ f ∈ deps, f ∈ K) ∧ (c (deps.map e) = true → Causal p e K)
  | .check deps _, _, K => ∀ f ∈ deps, f ∈ K
  | .allDefault p, e, K => (∀ f ∈ K, ¬ Occ f p) ∧ Causal p e K
  | .ext f p, e, K => Causal p e (f :: K)
  | .rep deps n p, e, K => (∀ f ∈ deps, f ∈ K) ∧
      ∀ i < n (deps.map e), Causal (p i) e ((List.range i).foldl (fun K j => known (p j) e K) K)
  | _, _, _ => True

/-- Every occurrence of a field has the same default. -/
def HasDefaults (dflt : Nat → Nat) : Prog → Prop
  | .skip => True
  | .seq a b => HasDefaults dflt a ∧ HasDefaults dflt b
  | .bits _ d f => d = dflt f
  | .u32 _ d f => d = dflt f
  | .u64 d f => d = dflt f
  | .f16 d f => d = dflt f
  | .enum _ d f => d = dflt f
  | .cond _ _ p => HasDefaults dflt p
  | .check _ _ => True
  | .allDefault p => HasDefaults dflt p
  | .ext f p => dflt f = 0 ∧ HasDefaults dflt p
  | .rep _ _ p => ∀ i, HasDefaults dflt (p i)

/-- The visited fields hold values of their C++ type; floats are half-precision values, and a float that counts as
default is the default. -/
def Good (near : Nat → Nat → Bool) : Prog → Env → Prop
  | .skip, _ => True
  | .seq a b, e => Good near a e ∧ Good near b e
  | .bits _ _ _, _ => True
  | .u32 _ _ f, e => e f < 2 ^ 32
  | .u64 _ f, e => e f < 2 ^ 64
  | .f16 d f, e => (∃ h < 2 ^ 16, F16.decode h = some (e f) ∧ F16.encode (e f) = some h) ∧ (near (e f) d = true → e f = d)
  | .enum _ _ f, e => e f < 2 ^ 32
  | .cond deps c p, e => c (deps.map e) = true → Good near p e
  | .check _ _, _ => True
  | .allDefault p, e => Good near p e
  | .ext f p, e => e f < 2 ^ 64 ∧ Good near p e
  | .rep deps n p, e => ∀ i < n (deps.map e), Good near (p i) e

/-- All extension masks visited are zero. -/
def NoExt : Prog → Env → Prop
  | .seq a b, e => NoExt a e ∧ NoExt b e
  | .cond deps c p, e => c (deps.map e) = true → NoExt p e
  | .allDefault p, e => NoExt p e
  | .ext f p, e => e f = 0 ∧ NoExt p e
  | .rep deps n p, e => ∀ i < n (deps.map e), NoExt (p i) e
  | _, _ => True

/-- No extension field at all. -/
def ExtFree : Prog → Prop
  | .seq a b => ExtFree a ∧ ExtFree b
  | .cond _ _ p => ExtFree p
  | .allDefault p => ExtFree p
  | .ext _ _ => False
  | .rep _ _ p => ∀ i, ExtFree (p i)
  | _ => True

def Agree (K : List Nat) (a b : Env) : Prop := ∀ f ∈ K, a f = b f

end Jxl.Bundle
