import Verif.Cont.Effect
import Verif.Cont.ApiSpec
/-!
Specification vocabulary for comparing two programs that execute the same operations, with nodes at different addresses, different numbers of
buckets and different moments of rehashing. A node `x` of the first program corresponds to the node `φ x` of the second.
-/
namespace MI.Cont
open MI
variable {V : Type}

/-- Two sequences of the same kind of index look alike: corresponding elements in the same order. In hashed indices, the order of elements with
different keys is left open; that of the elements with a given key is the same if `g` holds, else it is left open. -/
def Spec.Alike (g : Prop) (φ : Id → Id) (val val' : Id → V) (xs ys : List Id) : Spec V → Prop
  | .hash _ eq _ => ys.Perm (xs.map φ) ∧ (g → ∀ a, ys.filter (fun z => eq a (val' z)) = (xs.filter (fun z => eq a (val z))).map φ)
  | _ => ys = xs.map φ

/-- Two containers look alike: the same index specifiers, the same size, sequences that look alike. -/
structure Container.Alike (g : Prop) (φ : Id → Id) (val val' : Id → V) (c d : Container V) : Prop where
  asked : d.asked = c.asked
  count : d.count = c.count
  seqs : Each (fun S xs ys => S.Alike g φ val val' xs ys) c.asked c.seqs d.seqs

/-- Two programs look alike: corresponding elements have the same value, corresponding containers look alike and corresponding handles own corresponding
elements. -/
structure World.Alike (g : Prop) (φ : Id → Id) (w v : World V) : Prop where
  val : ∀ x ∈ w.m.cons, v.m.val (φ x) = w.m.val x
  node : ∀ x ∈ w.m.cons, φ x ∈ v.m.cons
  inj : ∀ x ∈ w.m.cons, ∀ y ∈ w.m.cons, φ x = φ y → x = y
  hs : v.hs = w.hs.map (Option.map φ)
  len : v.cs.length = w.cs.length
  cs : ∀ (i : Nat) (c d : Container V), w.cs[i]? = some c → v.cs[i]? = some d → c.Alike g φ w.m.val v.m.val d

/-- Corresponding iterators: both `end()`, or both at corresponding elements. -/
def PosAlike (φ : Id → Id) (c d : Container V) (p q : Id) : Prop := (p = c.hd ∧ q = d.hd) ∨ (p ∈ c.elems ∧ q = φ p)

/-- Corresponding hints. -/
def HintAlike (φ : Id → Id) (c d : Container V) : Option Id → Option Id → Prop
  | none, none => True
  | some p, some q => PosAlike φ c d p q
  | _, _ => False

/-- Corresponding rearrangements. -/
def Rearr.Alike (φ : Id → Id) (c d : Container V) : Rearr V → Rearr V → Prop
  | .relocateRange p a b, .relocateRange p' a' b' => PosAlike φ c d p p' ∧ PosAlike φ c d a a' ∧ PosAlike φ c d b b'
  | .reverse, .reverse => True
  | .rearrange vs, .rearrange vs' => vs' = vs.map φ
  | .splice p vs, .splice p' vs' => PosAlike φ c d p p' ∧ vs' = vs.map φ
  | _, _ => False

/-- The containers number `i` of two programs are related. -/
def Both (w v : World V) (i : Nat) (R : Container V → Container V → Prop) : Prop := ∀ c d, w.cs[i]? = some c → v.cs[i]? = some d → R c d

/-- Two values have the same key, as far as the hashed indices of `c` can tell. -/
def Container.HashKept (c : Container V) (a b : V) : Prop := ∀ n eq hf, Spec.hash n eq hf ∈ c.asked → eq a b = true

/-- The second program does what the first does: the same operation on corresponding containers, elements, positions and handles with the same
values and functions. Addresses of new nodes (`x`, `hd`, `ns`), failures and memory of the environment (`f`, `e`, `F`, …) and numbers of buckets
are independent. `ψ` is the correspondence of nodes after the operation. If `g` holds, changes of value must leave keys of hashed indices as they are. -/
inductive Match (g : Prop) (φ : Id → Id) (w v : World V) : (Id → Id) → Op V → Op V → Prop
  | new (hd z hd' z' : Id) (is is' : List (Init V)) : is'.map Init.spec = is.map Init.spec → Match g φ w v φ (.new hd z is) (.new hd' z' is')
  | insert (i : Nat) (a : V) (x x' : Id) (f f' : Fault) (hint hint' : Option Id) (e e' : Nat → Env) :
    Both w v i (fun c d => HintAlike φ c d hint hint') → Match g φ w v (upd φ x x') (.insert i a x f hint e) (.insert i a x' f' hint' e')
  | emplace (i : Nat) (a : V) (x x' : Id) (f f' : Fault) (hint hint' : Option Id) (e e' : Nat → Env) :
    Both w v i (fun c d => HintAlike φ c d hint hint') → Match g φ w v (upd φ x x') (.emplace i a x f hint e) (.emplace i a x' f' hint' e')
  | extract (i : Nat) (x : Id) : Match g φ w v φ (.extract i x) (.extract i (φ x))
  | insertNh (i h : Nat) (hint hint' : Option Id) (e e' : Nat → Env) :
    Both w v i (fun c d => HintAlike φ c d hint hint') → Match g φ w v φ (.insertNh i h hint e) (.insertNh i h hint' e')
  | newHandle : Match g φ w v φ .newHandle .newHandle
  | dropHandle (h : Nat) : Match g φ w v φ (.dropHandle h) (.dropHandle h)
  | moveHandle (h k : Nat) : Match g φ w v φ (.moveHandle h k) (.moveHandle h k)
  | swapHandles (h k : Nat) : Match g φ w v φ (.swapHandles h k) (.swapHandles h k)
  | erase (i : Nat) (x : Id) : Match g φ w v φ (.erase i x) (.erase i (φ x))
  | clear (i : Nat) : Match g φ w v φ (.clear i) (.clear i)
  | destroy (i : Nat) : Match g φ w v φ (.destroy i) (.destroy i)
  | replace (i : Nat) (x : Id) (a : V) (b b' : Bool) (e e' : Nat → Env) :
    (g → ∀ c, w.cs[i]? = some c → c.HashKept a (w.m.val x)) → Match g φ w v φ (.replace i x a b e) (.replace i (φ x) a b' e')
  | modify (i : Nat) (x : Id) (mod : V → V × Bool) (e e' : Nat → Env) :
    (g → ∀ c, w.cs[i]? = some c → c.HashKept (mod (w.m.val x)).1 (w.m.val x)) → Match g φ w v φ (.modify i x mod e) (.modify i (φ x) mod e')
  | modifyRb (i : Nat) (x : Id) (mod back : V → V × Bool) (e f e' f' : Nat → Env) :
    (g → ∀ c, w.cs[i]? = some c → c.HashKept (mod (w.m.val x)).1 (w.m.val x)) →
    (∀ c, w.cs[i]? = some c → Restores c.asked mod back (w.m.val x)) →
    Match g φ w v φ (.modifyRb i x mod back e f) (.modifyRb i (φ x) mod back e' f')
  | transfer (i j : Nat) (x : Id) (e e' : Nat → Env) : Match g φ w v φ (.transfer i j x e) (.transfer i j (φ x) e')
  | swap (i j : Nat) : Match g φ w v φ (.swap i j) (.swap i j)
  | copy (i : Nat) (hd z hd' z' : Id) (ns ns' : List Id) (e e' : Nat → Env) (F F' : CopyFault) (ψ : Id → Id) :
    -- the copy of an element corresponds to the copy of the corresponding element
    (∀ x ∈ w.m.cons, ψ x = φ x) →
    Both w v i (fun c d => ∀ (k l : Nat) (x n n' : Id), c.elems[k]? = some x → d.elems[l]? = some (φ x) → ns[k]? = some n → ns'[l]? = some n' → ψ n = n') →
    Match g φ w v ψ (.copy i hd z ns e F) (.copy i hd' z' ns' e' F')
  | newLike (i : Nat) (hd z hd' z' : Id) (pol pol' : Pol) (e e' : Nat → Env) (F F' : CopyFault) :
    Match g φ w v φ (.newLike i hd z pol e F) (.newLike i hd' z' pol' e' F')
  | swapElements (i j : Nat) : Match g φ w v φ (.swapElements i j) (.swapElements i j)
  | relocate (i k : Nat) (p p' x : Id) : Both w v i (fun c d => PosAlike φ c d p p') → Match g φ w v φ (.relocate i k p x) (.relocate i k p' (φ x))
  | rearrange (i k : Nat) (a a' : Rearr V) : Both w v i (fun c d => a.Alike φ c d a') → Match g φ w v φ (.rearrange i k a) (.rearrange i k a')

/-- Operations that only tune the use of memory: a program may execute them when and as it likes. -/
inductive Tunes : Op V → Prop
  | rehash (i k n : Nat) (e : Env) : Tunes (.rehash i k n e)
  | reserve (i k n : Nat) (f : Bool) (junk : Nat → Id) : Tunes (.rearrange i k (.reserve n f junk))
  | shrink (i k : Nat) (f : Bool) (junk : Nat → Id) : Tunes (.rearrange i k (.shrink f junk))

/-- Two programs that have had the same history, apart from addresses, numbers of buckets and tuning. -/
inductive Twins (g : Prop) : (Id → Id) → World V → World V → Prop
  | init (φ : Id → Id) (val val' : Id → V) : Twins g φ ⟨⟨val, [], []⟩, [], []⟩ ⟨⟨val', [], []⟩, [], []⟩
  | step {φ ψ : Id → Id} {w v w' v' : World V} {o o' : Op V} {r r' : Ret} : Twins g φ w v → Match g φ w v ψ o o' → w.Legal o → v.Legal o' →
    w.step o = .ok (w', r) → v.step o' = .ok (v', r') → Twins g ψ w' v'
  | left {φ : Id → Id} {w v w' : World V} {o : Op V} {r : Ret} : Twins g φ w v → Tunes o → w.Legal o →
    (w.step o = .ok (w', r) ∨ w.step o = .threw (w', r)) → Twins g φ w' v
  | right {φ : Id → Id} {w v v' : World V} {o : Op V} {r : Ret} : Twins g φ w v → Tunes o → v.Legal o →
    (v.step o = .ok (v', r) ∨ v.step o = .threw (v', r)) → Twins g φ w v'

end MI.Cont
