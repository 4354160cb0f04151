import Verif.Ord.Chosen
import Verif.Props.Ord
/-! C45: parent and colour of a node, on every platform. -/
namespace MI.Ord
open MI

/-- An update of a node. -/
inductive LinkOp
  | parent (p : Nat)
  | color (c : Color)

/-- The node after an update. -/
def LinkOp.run (l : Link) : LinkOp → Link
  | .parent p => l.setParent p
  | .color c => l.setColor c

/-- What was written last. -/
def LinkOp.last (s : Nat × Color) : LinkOp → Nat × Color
  | .parent p => (p, s.2)
  | .color c => (s.1, c)

/-- `p` is the address of a node, or null: it is in the range of pointers, and aligned as nodes are. -/
def LinkOp.Ok (P : Platform) : LinkOp → Prop
  | .parent p => p < 2 ^ (8 * P.ptr) ∧ P.align ∣ p
  | .color _ => True

/-- C45: the compressed representation is chosen only if the number that holds parent and colour has as many bits as a pointer, addresses of nodes are even, and pointers are plain ones. -/
theorem C45_choice {P : Platform} (h : P.compressed = true) : P.uintptr = P.ptr ∧ 2 ∣ P.align ∧ P.plain = true ∧ P.disabled = false := by
  simp only [Platform.compressed, Bool.and_eq_true, Bool.not_eq_true', Bool.or_eq_false_iff, bne_eq_false_iff_eq, Bool.not_eq_false'] at h
  obtain ⟨hd, ⟨hu, ha⟩, hp⟩ := h
  refine ⟨?_, Nat.dvd_of_mod_eq_zero ha, hp, hd⟩
  simp only [Platform.hasUintptr, decide_eq_true_eq] at hu
  unfold Platform.uintptr
  revert hu
  unfold Platform.index
  repeat' split
  all_goals first | (intro _; symm; assumption) | (intro h; omega)

/-- C45: and it is always chosen then: some unsigned type is of the size of a pointer, nodes have even alignment, pointers are plain, and the user has not disabled it. -/
theorem C45_chosen {P : Platform} (h : P.uint = P.ptr ∨ P.ushort = P.ptr ∨ P.ulong = P.ptr ∨ P.ulonglong = some P.ptr ∨ P.int64 = some P.ptr) (ha : 2 ∣ P.align)
    (hp : P.plain = true) (hd : P.disabled = false) : P.compressed = true := by
  have : 0 ≤ P.index := by
    unfold Platform.index
    repeat' split
    all_goals first | omega | skip
    rename_i n0 n1 n2 n3 n4
    simp only [Platform.candidate] at n0 n1 n2 n3 n4
    rcases h with h | h | h | h | h
    · exact absurd h.symm n0
    · exact absurd h.symm n1
    · exact absurd h.symm n2
    · simp [h] at n3
    · simp [h] at n4
  simp [Platform.compressed, Platform.hasUintptr, this, Nat.mod_eq_zero_of_dvd ha, hp, hd]

theorem Link.run_of {P : Platform} {l : Link} (h : l.Of P) (op : LinkOp) : (op.run l).Of P := by
  cases op <;> cases l <;> exact h

/-- One update, on every platform. -/
theorem Link.run_read {P : Platform} (hp : 0 < P.ptr) {l : Link} (h : l.Of P) {op : LinkOp} (ok : op.Ok P) :
    ((op.run l).parent, (op.run l).color) = op.last (l.parent, l.color) := by
  cases l with
  | two p c => cases op <;> rfl
  | one w r =>
    obtain ⟨hc, rfl⟩ := h
    obtain ⟨hw, ha, -, -⟩ := C45_choice hc
    have hw' : 0 < 8 * P.uintptr := by omega
    cases op with
    | parent p =>
      obtain ⟨lt, al⟩ := ok
      rw [← hw] at lt
      have even : p % 2 = 0 := Nat.mod_eq_zero_of_dvd (Nat.dvd_trans ha al)
      have e : (BitVec.ofNat (8 * P.uintptr) p) &&& 1#_ = 0#_ := by
        apply BitVec.eq_of_toNat_eq
        have one : 1 % 2 ^ (8 * P.uintptr) = 1 := Nat.mod_eq_of_lt (Nat.one_lt_two_pow (by omega))
        rw [BitVec.toNat_and, BitVec.toNat_ofNat, BitVec.toNat_ofNat, BitVec.toNat_ofNat, one, Nat.mod_eq_of_lt lt, Nat.and_one_is_mod, even, Nat.zero_mod]
      have := C45_step hw' r (.parent (BitVec.ofNat _ p)) e
      simp only [BitOp.word, BitOp.fields, Prod.mk.injEq] at this
      simp only [LinkOp.run, Link.setParent, Link.parent, Link.color, LinkOp.last, this]
      rw [BitVec.toNat_ofNat, Nat.mod_eq_of_lt lt]
    | color c =>
      have := C45_step hw' r (.color c) trivial
      simp only [BitOp.word, BitOp.fields, Prod.mk.injEq] at this
      simp only [LinkOp.run, Link.setColor, Link.parent, Link.color, LinkOp.last, this]

/-- C45: on every platform, whatever the sizes of its types, after any updates of a node its parent and its colour are those written last. -/
theorem C45_platforms {P : Platform} (hp : 0 < P.ptr) {l : Link} (h : l.Of P) (ops : List LinkOp) (ok : ∀ op ∈ ops, op.Ok P) :
    ((ops.foldl LinkOp.run l).parent, (ops.foldl LinkOp.run l).color) = ops.foldl LinkOp.last (l.parent, l.color) := by
  induction ops generalizing l with
  | nil => rfl
  | cons op ops ih =>
    rw [List.foldl_cons, List.foldl_cons, ih (Link.run_of h op) (fun o ho => ok o (by simp [ho])), Link.run_read hp h (ok op (by simp))]

/-- Linux, 64 bits; Windows, 64 bits; and a platform with pointers of 16 bytes, that has no such integer. -/
def exLinux : Platform := ⟨8, 4, 2, 8, some 8, none, 8, true, false⟩
def exWindows : Platform := ⟨8, 4, 2, 4, none, some 8, 8, true, false⟩
def exWide : Platform := ⟨16, 4, 2, 8, some 8, none, 16, true, false⟩

example : exLinux.compressed = true ∧ exLinux.index = 2 ∧ exWindows.compressed = true ∧ exWindows.index = 4 ∧ exWide.compressed = false := by decide

example : exWindows.compressed = true := C45_chosen (Or.inr (Or.inr (Or.inr (Or.inr rfl)))) (by decide) rfl rfl

example : (([.parent 0x7f3a10, .color .black, .parent 0x7f3a18] : List LinkOp).foldl LinkOp.run (.one 64 0#64)).parent = 0x7f3a18 := by
  have := C45_platforms (P := exLinux) (by decide) (l := .one 64 0#64) ⟨by decide, rfl⟩ [.parent 0x7f3a10, .color .black, .parent 0x7f3a18]
    (by simp only [List.mem_cons, List.not_mem_nil, or_false]; rintro op (rfl | rfl | rfl) <;> first | trivial | exact ⟨by decide, by decide⟩)
  exact congrArg Prod.fst this
end MI.Ord
