import Verif.Rnd.Algo2
import Verif.Spec.Sift
/-! Helper lemmas: what the loops of `remove_if`, `unique` and `merge` of the random access index do, in terms of `Sift` and `Merges`. -/
namespace MI

theorem Sift.perm {ask : Nat → Id → Id → Option Bool} {t : Nat} {l : Id} {xs kept gone : List Id} (h : Sift ask t l xs kept gone) : (kept ++ gone).Perm xs := by
  induction h with
  | nil => exact .refl _
  | keep _ _ ih => exact ih.cons _
  | drop _ _ ih => exact List.perm_middle.trans (ih.cons _)

theorem SiftStops.drop' {ask : Nat → Id → Id → Option Bool} {t : Nat} {l x : Id} {xs done a b : List Id} (h : ask t l x = some true)
    (s : SiftStops ask (t + 1) l xs done a b) : SiftStops ask t l (x :: xs) (x :: done) a (x :: b) := by
  obtain ⟨y, r, rfl, s, h2⟩ := s
  refine ⟨y, r, rfl, .drop h s, ?_⟩
  rw [List.length_cons, Nat.add_comm done.length, ← Nat.add_assoc]
  exact h2

theorem SiftStops.keep' {ask : Nat → Id → Id → Option Bool} {t : Nat} {l x : Id} {xs done a b : List Id} (h : ask t l x = some false)
    (s : SiftStops ask (t + 1) x xs done a b) : SiftStops ask t l (x :: xs) (x :: done) (x :: a) b := by
  obtain ⟨y, r, rfl, s, h2⟩ := s
  refine ⟨y, r, rfl, .keep h s, ?_⟩
  rw [List.length_cons, Nat.add_comm done.length, ← Nat.add_assoc, List.getLastD_cons]
  exact h2

end MI

namespace MI.Rnd
open MI

theorem remL_sift (pred : Nat → Id → Option Bool) : ∀ (xs : List Id) (k : Nat) (kept gone : List Id) (l : Id),
    ((remL pred k kept gone xs).1 = true ∧ ∃ a b, Sift (fun t _ x => pred t x) k l xs a b ∧ (remL pred k kept gone xs).2.1 = kept ++ a ∧
      (remL pred k kept gone xs).2.2.Perm (gone ++ b)) ∨
    ((remL pred k kept gone xs).1 = false ∧ ∃ done a b, SiftStops (fun t _ x => pred t x) k l xs done a b)
  | [], k, kept, gone, l => Or.inl ⟨rfl, [], [], .nil, by simp [remL], by simp [remL]⟩
  | x :: xs, k, kept, gone, l => by
    rcases h : pred k x with - | b
    · exact Or.inr ⟨by simp [remL, h], [], [], [], x, xs, rfl, .nil, by simpa using h⟩
    · cases b with
      | true =>
        have e : remL pred k kept gone (x :: xs) = remL pred (k + 1) kept (gone ++ [x]) xs := by simp [remL, h]
        rw [e]
        rcases remL_sift pred xs (k + 1) kept (gone ++ [x]) l with ⟨h1, a, b, s, h2, h3⟩ | ⟨h1, dn, a, b, s⟩
        · exact Or.inl ⟨h1, a, x :: b, .drop h s, h2, by simpa using h3⟩
        · exact Or.inr ⟨h1, x :: dn, a, x :: b, SiftStops.drop' h s⟩
      | false =>
        have e : remL pred k kept gone (x :: xs) = remL pred (k + 1) (kept ++ [x]) (gone.tail ++ gone.take 1) xs := by simp [remL, h]
        rw [e]
        rcases remL_sift pred xs (k + 1) (kept ++ [x]) (gone.tail ++ gone.take 1) x with ⟨h1, a, b, s, h2, h3⟩ | ⟨h1, dn, a, b, s⟩
        · refine Or.inl ⟨h1, x :: a, b, .keep h s, by simpa using h2, h3.trans (List.Perm.append_right b ?_)⟩
          cases gone with
          | nil => simp
          | cons g gs => simpa using List.perm_append_comm (l₁ := gs) (l₂ := [g])
        · exact Or.inr ⟨h1, x :: dn, x :: a, b, SiftStops.keep' h s⟩

theorem uniL_sift (pred : Nat → Id → Id → Option Bool) : ∀ (xs : List Id) (k : Nat) (kept : List Id) (f : Id) (gone : List Id),
    ((uniL pred k kept f gone xs).1 = true ∧ ∃ a b, Sift pred k f xs a b ∧ (uniL pred k kept f gone xs).2.1 = kept ++ f :: a ∧
      (uniL pred k kept f gone xs).2.2.Perm (gone ++ b)) ∨
    ((uniL pred k kept f gone xs).1 = false ∧ ∃ done a b, SiftStops pred k f xs done a b)
  | [], k, kept, f, gone => Or.inl ⟨rfl, [], [], .nil, by simp [uniL], by simp [uniL]⟩
  | x :: xs, k, kept, f, gone => by
    rcases h : pred k f x with - | b
    · exact Or.inr ⟨by simp [uniL, h], [], [], [], x, xs, rfl, .nil, by simpa using h⟩
    · cases b with
      | true =>
        have e : uniL pred k kept f gone (x :: xs) = uniL pred (k + 1) kept f (gone ++ [x]) xs := by simp [uniL, h]
        rw [e]
        rcases uniL_sift pred xs (k + 1) kept f (gone ++ [x]) with ⟨h1, a, b, s, h2, h3⟩ | ⟨h1, dn, a, b, s⟩
        · exact Or.inl ⟨h1, a, x :: b, .drop h s, h2, by simpa using h3⟩
        · exact Or.inr ⟨h1, x :: dn, a, x :: b, SiftStops.drop' h s⟩
      | false =>
        have e : uniL pred k kept f gone (x :: xs) = uniL pred (k + 1) (kept ++ [f]) x (gone.tail ++ gone.take 1) xs := by simp [uniL, h]
        rw [e]
        rcases uniL_sift pred xs (k + 1) (kept ++ [f]) x (gone.tail ++ gone.take 1) with ⟨h1, a, b, s, h2, h3⟩ | ⟨h1, dn, a, b, s⟩
        · refine Or.inl ⟨h1, x :: a, b, .keep h s, by simpa using h2, h3.trans (List.Perm.append_right b ?_)⟩
          cases gone with
          | nil => simp
          | cons g gs => simpa using List.perm_append_comm (l₁ := gs) (l₂ := [g])
        · exact Or.inr ⟨h1, x :: dn, x :: a, b, SiftStops.keep' h s⟩

/-- The loop of `remove_if`: the array and the position `res`. -/
theorem removeGo_sift (pred : Nat → Id → Option Bool) {s : Arr} {hd : Id} {xs : List Id} (h : Rep s hd xs) :
    (∃ s' kept gone g, removeGo pred s.size s 0 0 0 = .ok (s', kept.length) ∧ Sift (fun t _ x => pred t x) 0 hd xs kept gone ∧ g.Perm gone ∧ Rep s' hd (kept ++ g)) ∨
    (∃ s' n ys done kept gone, removeGo pred s.size s 0 0 0 = .threw (s', n) ∧ SiftStops (fun t _ x => pred t x) 0 hd xs done kept gone ∧ Rep s' hd ys ∧ ys.Perm xs) := by
  obtain ⟨s', e, r, -⟩ := rep_removeGo pred xs (s := s) (kept := []) (gone := []) (k := 0) (by simpa using h)
  simp only [List.length_nil, Nat.add_zero] at e
  rw [h.1, e]
  rcases remL_sift pred xs 0 [] [] hd with ⟨h1, a, b, si, h2, h3⟩ | ⟨h1, dn, a, b, si⟩
  · left
    simp only [List.nil_append] at h2 h3
    rw [h1, h2] 
    rw [h2] at r
    exact ⟨s', a, b, _, rfl, si, h3, r⟩
  · right
    rw [h1]
    exact ⟨s', _, _, dn, a, b, rfl, si, r, by simpa using remL_perm pred xs 0 [] []⟩

/-- `random_access_index_unique`. -/
theorem uniqueAll_sift (pred : Nat → Id → Id → Option Bool) {s : Arr} {hd : Id} {xs : List Id} (h : Rep s hd xs) :
    (xs = [] ∧ uniqueAll pred s = .ok (s, 0)) ∨ ∃ f ys, xs = f :: ys ∧
    ((∃ s' kept gone g, uniqueAll pred s = .ok (s', kept.length + 1) ∧ Sift pred 0 f ys kept gone ∧ g.Perm gone ∧ Rep s' hd (f :: kept ++ g)) ∨
    (∃ s' n zs done kept gone, uniqueAll pred s = .threw (s', n) ∧ SiftStops pred 0 f ys done kept gone ∧ Rep s' hd zs ∧ zs.Perm xs)) := by
  unfold uniqueAll
  have h0 := h.1
  cases xs with
  | nil => left; rw [if_pos (by simpa using h0)]; exact ⟨rfl, rfl⟩
  | cons f xs =>
    right
    simp only [List.length_cons] at h0
    rw [if_neg (by omega)]
    obtain ⟨s', e, r, c⟩ := rep_uniqueGo pred xs (s := s) (kept := []) (f := f) (gone := []) (k := 0) (by simpa using h)
    simp only [List.length_nil, Nat.add_zero, Nat.zero_add] at e
    have e0 : s.size - 1 = xs.length := by omega
    rw [e0, e]
    refine ⟨f, xs, rfl, ?_⟩
    rcases uniL_sift pred xs 0 [] f [] with ⟨h1, a, b, si, h2, h3⟩ | ⟨h1, dn, a, b, si⟩
    · left
      simp only [List.nil_append] at h2 h3
      rw [h1, h2]
      rw [h2] at r
      exact ⟨s', a, b, _, rfl, si, h3, r⟩
    · right
      rw [h1]
      exact ⟨s', _, _, dn, a, b, rfl, si, r, by simpa using uniL_perm pred xs 0 [] f []⟩

theorem mrgL_merges (cmp : Nat → Id → Id → Option Bool) (k : Nat) (xs ys : List Id) : (∃ zs, mrgL cmp k xs ys = some zs ∧ Merges cmp k xs ys zs) ∨
    (mrgL cmp k xs ys = none ∧ ∃ t y x, cmp t y x = none) := by
  fun_induction mrgL cmp k xs ys with
  | case1 k ys => exact Or.inl ⟨_, rfl, .left⟩
  | case2 k x xs => exact Or.inl ⟨_, rfl, .right⟩
  | case3 k x xs y ys h => exact Or.inr ⟨rfl, k, y, x, h⟩
  | case4 k x xs y ys h ih =>
    rcases ih with ⟨zs, e, m⟩ | ⟨e, q⟩
    · exact Or.inl ⟨y :: zs, by simp [e], .take h m⟩
    · exact Or.inr ⟨by simp [e], q⟩
  | case5 k x xs y ys h ih =>
    rcases ih with ⟨zs, e, m⟩ | ⟨e, q⟩
    · exact Or.inl ⟨x :: zs, by simp [e], .keep h m⟩
    · exact Or.inr ⟨by simp [e], q⟩

end MI.Rnd
