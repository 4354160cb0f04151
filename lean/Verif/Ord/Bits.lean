import Verif.Ord.Heap
/-!
# Compressed ordered nodes: colour in the low bit of the parent pointer

Models `ordered_index_node_compressed_base` (detail/ord_index_node.hpp:131-220). `w` is the width of `uintptr_type`; a pointer is
converted to an integer and back without loss.
-/
namespace MI.Ord
open MI

section
variable {w : Nat}

/-- `enum ordered_index_color{red=false,black=true}` as an integer: ord_index_node.hpp:64. -/
def Color.toBits : Color → BitVec w
  | .red => 0#w
  | .black => 1#w

/-- `color()`, `color_ref::operator ordered_index_color`: ord_index_node.hpp:148-151, 200-203. -/
def getColor (r : BitVec w) : Color := if r &&& 1#w = 0#w then .red else .black

/-- `color_ref::operator=(c)`: ord_index_node.hpp:153-158. -/
def putColor (r : BitVec w) (c : Color) : BitVec w := (r &&& ~~~1#w) ||| c.toBits

/-- `parent()`, `parent_ref::operator pointer`: ord_index_node.hpp:174-177, 206-209. -/
def getParent (r : BitVec w) : BitVec w := r &&& ~~~1#w

/-- `parent_ref::operator=(p)`: ord_index_node.hpp:179-183. -/
def putParent (r p : BitVec w) : BitVec w := p ||| (r &&& 1#w)

theorem bit_ext {a b : BitVec w} (h : ∀ i, i < w → a.getLsbD i = b.getLsbD i) : a = b := BitVec.eq_of_getLsbD_eq h

theorem even_bit (hw : 0 < w) {p : BitVec w} (hp : p &&& 1#w = 0#w) : p.getLsbD 0 = false := by
  have := congrArg (fun b => b.getLsbD 0) hp
  simpa [hw] using this

theorem getColor_bit (hw : 0 < w) (r : BitVec w) : getColor r = if r.getLsbD 0 then .black else .red := by
  unfold getColor
  by_cases h : r &&& 1#w = 0#w
  · rw [if_pos h, even_bit hw h]; rfl
  · rw [if_neg h]
    cases hb : r.getLsbD 0 with
    | true => rfl
    | false =>
      exfalso; apply h
      apply bit_ext
      intro i hi
      by_cases h0 : i = 0
      · subst h0; simp [hb]
      · simp [h0]

end
end MI.Ord
