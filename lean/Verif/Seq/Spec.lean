import Verif.Seq.Heap
import Verif.Spec.Lists
/-! Specification vocabulary for the sequenced index: which list a heap of linked nodes represents. -/
namespace MI.Seq
open MI

/-- `Seg h a xs b`: from `a`, following `next` one meets exactly `xs` and then `b`, and `prior`
is the converse. -/
def Seg (h : Heap) : Id → List Id → Id → Prop
  | a, [], b => h.next a = b ∧ h.prior b = a
  | a, x :: xs, b => h.next a = x ∧ h.prior x = a ∧ Seg h x xs b

/-- The circular list hanging from `header` is exactly `xs`. -/
def Circ (h : Heap) (header : Id) (xs : List Id) : Prop :=
  (header :: xs).Nodup ∧ Seg h header xs header

/-- All node ids (headers included) of a family of circular lists. -/
def famIds (L : List (Id × List Id)) : List Id := L.flatMap (fun p => p.1 :: p.2)

/-- A heap holds a family of disjoint circular lists, given as (header, elements) pairs. -/
def Fam (h : Heap) (L : List (Id × List Id)) : Prop :=
  (famIds L).Nodup ∧ ∀ p ∈ L, Seg h p.1 p.2 p.1

instance (h : Heap) (b : Id) : (a : Id) → (xs : List Id) → Decidable (Seg h a xs b)
  | a, [] => inferInstanceAs (Decidable (h.next a = b ∧ h.prior b = a))
  | a, x :: xs =>
    have : Decidable (Seg h x xs b) := instDecidableSeg h b x xs
    inferInstanceAs (Decidable (h.next a = x ∧ h.prior x = a ∧ Seg h x xs b))

instance (h : Heap) (L : List (Id × List Id)) : Decidable (Fam h L) :=
  inferInstanceAs (Decidable ((famIds L).Nodup ∧ ∀ p ∈ L, Seg h p.1 p.2 p.1))

end MI.Seq
