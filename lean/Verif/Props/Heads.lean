import Verif.Ser.Head
/-! C92: archives of older versions of the library and of the elements. -/
namespace MI.Ser.Head

/-- What has to be true of a number of elements for it to be written by class version `v`: it fits `std::size_t`, and `unsigned long` if that is what was used. -/
def Fits (P : Platform) (v n : Nat) : Prop := n < 2 ^ P.sizeBits ∧ (v = 3 → n < 2 ^ P.ulongBits)

/-- What has to be true for archives of class version `v` to be read: the macro for compatibility is defined if need be. -/
def Readable (P : Platform) (compat : Bool) (v : Nat) : Prop := (v = 1 ∨ v = 2) → P.special = true → compat = true

theorem count_back {P : Platform} {compat : Bool} {v n : Nat} (hv : v ≤ 4) (f : Fits P v n) (r : Readable P compat v) (ts : List Tok) :
    loadCount P compat v (saveCount P v n :: ts) = some (n, ts) := by
  have : v = 0 ∨ v = 1 ∨ v = 2 ∨ v = 3 ∨ v = 4 := by omega
  unfold Readable at r
  rcases this with rfl | rfl | rfl | rfl | rfl
  · rfl
  · cases compat <;> cases hs : P.special <;> simp_all [loadCount, saveCount, readNum, Platform.coll]
  · cases compat <;> cases hs : P.special <;> simp_all [loadCount, saveCount, readNum, Platform.coll]
  · have := f.2 rfl
    simp [loadCount, saveCount, readNum, Nat.mod_eq_of_lt this]
  · rfl

theorem heads_back {P : Platform} {compat : Bool} {v e mine : Nat} (hv : v ≤ 4) (r : Readable P compat v) : ∀ (ns : List Nat) (known : Option Nat) (ts : List Tok), (∀ n ∈ ns, Fits P v n) →
    (∀ k, known = some k → k = e) →
    loadHeads P compat v mine known ns.length (saveHeads P v e known ns ++ ts) = some (ns.map fun n => (n, if v < 2 then 0 else e), ts)
  | [], _, _, _, _ => rfl
  | n :: ns, known, ts, h, hk => by
    have c := fun ts => count_back hv (h n (by simp)) r ts
    have h' : ∀ m ∈ ns, Fits P v m := fun m hm => h m (by simp [hm])
    by_cases h2 : v < 2
    · simp only [List.length_cons, saveHeads, h2, if_true, List.cons_append, loadHeads, loadHead, c, heads_back (e := e) (mine := mine) hv r ns known ts h' hk, List.map_cons]
    · cases known with
      | none =>
        simp only [List.length_cons, saveHeads, h2, if_false, List.cons_append, loadHeads, loadHead, c, saveVersion, loadVersion, List.nil_append,
          heads_back (e := e) (mine := mine) hv r ns (some e) ts h' (fun _ h => (Option.some.inj h).symm), List.map_cons]
      | some k =>
        have := hk k rfl; subst this
        simp only [List.length_cons, saveHeads, h2, if_false, List.cons_append, loadHeads, loadHead, c, saveVersion, loadVersion, List.nil_append,
          heads_back (e := k) (mine := mine) hv r ns (some k) ts h' (fun _ h => (Option.some.inj h).symm), List.map_cons]

/-- C92: any number of containers saved by any version of the library are found to have the numbers of elements they had, and their elements are constructed with the version the type of elements had in the program
that saved them (0 for versions of the library that did not save it), whatever version it has in the program that loads them. -/
theorem C92_heads {P : Platform} {compat : Bool} {v e mine : Nat} (hv : v ≤ 4) (r : Readable P compat v) {ns : List Nat} (h : ∀ n ∈ ns, Fits P v n) (ts : List Tok) :
    loadHeads P compat v mine none ns.length (saveHeads P v e none ns ++ ts) = some (ns.map fun n => (n, if v < 2 then 0 else e), ts) :=
  heads_back hv r ns none ts h (fun _ e => nomatch e)

/-- C92: archives of the present version are read without conditions. -/
theorem C92_present {P : Platform} {compat : Bool} {e mine : Nat} {ns : List Nat} (h : ∀ n ∈ ns, n < 2 ^ P.sizeBits) (ts : List Tok) :
    loadHeads P compat 4 mine none ns.length (saveHeads P 4 e none ns ++ ts) = some (ns.map fun n => (n, e), ts) :=
  C92_heads (v := 4) (Nat.le_refl _) (fun h => by omega) (fun n hn => ⟨h n hn, fun h => by omega⟩) ts

/-- A version of a class. -/
def Tok.isVer : Tok → Bool
  | .ver _ => true
  | .num _ _ => false

/-- C92: the version of elements is saved once in an archive, however many containers there are. -/
theorem C92_version_once {P : Platform} {v e : Nat} (hv : 2 ≤ v) (ns : List Nat) :
    ((saveHeads P v e none ns).filter Tok.isVer).length = min 1 ns.length := by
  have count : ∀ n, (saveCount P v n).isVer = false := by
    intro n; unfold saveCount; repeat' split
    all_goals rfl
  have rest : ∀ ns : List Nat, (saveHeads P v e (some e) ns).filter Tok.isVer = [] := by
    intro ns
    induction ns with
    | nil => rfl
    | cons n ns ih =>
      have : ¬ v < 2 := by omega
      simp only [saveHeads, this, if_false, saveVersion, List.nil_append]
      rw [List.filter_cons_of_neg (by simp [count]), ih]
  cases ns with
  | nil => rfl
  | cons n ns =>
    have : ¬ v < 2 := by omega
    simp only [saveHeads, this, if_false, saveVersion, List.singleton_append]
    rw [List.filter_cons_of_neg (by simp [count]), List.filter_cons_of_pos rfl, rest]
    simp

/-- C92: both conditions are needed. With version 3, where `unsigned long` is smaller than `std::size_t`, numbers of elements that do not fit are read as other numbers; with versions 1 and 2, archives that treat
`collection_size_type` in a special way cannot be read unless the macro is defined. -/
theorem C92_conditions (P : Platform) : (∀ n, 2 ^ P.ulongBits ≤ n → ∃ m, m ≠ n ∧ ∀ compat ts, loadCount P compat 3 (saveCount P 3 n :: ts) = some (m, ts)) ∧
    (P.special = true → ∀ v, v = 1 ∨ v = 2 → ∀ n ts, loadCount P false v (saveCount P v n :: ts) = none) := by
  constructor
  · intro n hn
    have : n % 2 ^ P.ulongBits < 2 ^ P.ulongBits := Nat.mod_lt _ (Nat.two_pow_pos _)
    exact ⟨n % 2 ^ P.ulongBits, by omega, fun _ _ => rfl⟩
  · rintro hs v (rfl | rfl) n ts <;> simp [loadCount, saveCount, readNum, Platform.coll, hs]

/-- Three containers saved by version 2 of the library, with version 7 of the elements; the program that loads them has version 9. -/
example : loadHeads ⟨64, 32, true⟩ true 2 9 none 3 (saveHeads ⟨64, 32, true⟩ 2 7 none [5, 0, 2 ^ 40] ++ [.ver 1]) = some ([(5, 7), (0, 7), (2 ^ 40, 7)], [.ver 1]) :=
  C92_heads (P := ⟨64, 32, true⟩) (v := 2) (ns := [5, 0, 2 ^ 40]) (by decide) (fun _ _ => rfl) (by simp [Fits]) _
end MI.Ser.Head
