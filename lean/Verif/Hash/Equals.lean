import Verif.Hash.Ops
import Verif.Spec.Perm
set_option linter.unusedSimpArgs false
/-!
# Comparison of hashed indices

Models hashed_index.hpp:1189-1231. The two indices are in the memories `h1`, `h2`; `v1`, `v2` give the values of their elements, `veq` is
`operator==` of values, `key`, `eqK`, `hashK` the key extractor, equality and hash function of both.
-/
namespace MI.Hash
open MI

section Model
variable {V K : Type} (key : V → K) (eqK : K → K → Bool) (hashK : K → Nat) (veq : V → V → Bool)

/-- The nodes from `x` up to `y`, as the iterator loops of the algorithms below visit them. -/
def walk (c : Cat) (h : Heap) (y : Id) : Nat → Id → Out (List Id)
  | 0, x => if x = y then .ok [] else .hang
  | n + 1, x =>
    if x = y then .ok []
    else
      match walk c h y n (after c h x) with
      | .ok l => .ok (x :: l)
      | r => r

/-- Equality of the keys of two elements of one index. -/
def eqOf (v : Id → V) (x y : Id) : Bool := eqK (key (v x)) (key (v y))

/-- Hash of the key of an element. -/
def hashOf (v : Id → V) (x : Id) : Nat := hashK (key (v x))

/-- `equals` for unique indices: hashed_index.hpp:1191-1200, the loop. -/
def equalsLoopU (n : Nat) (h1 : Heap) (hd1 : Id) (v1 : Id → V) (h2 : Heap) (a2 : Arr) (hd2 : Id) (v2 : Id → V) : Nat → Id → Out Bool
  | 0, it => if it = hd1 then .ok true else .hang
  | k + 1, it =>
    if it = hd1 then .ok true
    else
      match find n .uniq (fun y => eqK (key (v1 it)) (key (v2 y))) (hashK (key (v1 it))) h2 a2 hd2 with
      | .ok it2 =>
        if it2 = hd2 || !veq (v1 it) (v2 it2) then .ok false
        else equalsLoopU n h1 hd1 v1 h2 a2 hd2 v2 k (after .uniq h1 it)
      | .threw _ => .hang
      | .ub => .ub
      | .hang => .hang

/-- The second loop of the permutation test: hashed_index.hpp:1220-1224. `pre` is the range from `it` to `scan`, `r` the range from `scan` on. -/
def scanLoop (m2 : List V) : List V → List V → Bool
  | _, [] => true
  | pre, s :: r =>
    if pre.any (fun y => veq y s) then scanLoop m2 (pre ++ [s]) r
    else if m2.countP (fun y => veq y s) = 0 || m2.countP (fun y => veq y s) ≠ (s :: r).countP (fun y => veq y s) then false
    else scanLoop m2 (pre ++ [s]) r

/-- The permutation test on ranges of the same length: hashed_index.hpp:1216-1226. -/
def groupEq : List V → List V → Bool
  | s :: r, t :: q => if veq s t then groupEq r q else scanLoop veq (t :: q) [] (s :: r)
  | _, _ => true

/-- `equals` for non-unique indices: hashed_index.hpp:1203-1229, the loop. -/
def equalsLoopN (n : Nat) (h1 : Heap) (hd1 : Id) (v1 : Id → V) (h2 : Heap) (a2 : Arr) (hd2 : Id) (v2 : Id → V) : Nat → Id → Out Bool
  | 0, it => if it = hd1 then .ok true else .hang
  | k + 1, it =>
    if it = hd1 then .ok true
    else
      match equalRange n .multi (eqOf key eqK v2) (fun y => eqK (key (v1 it)) (key (v2 y))) (hashK (key (v1 it))) h2 a2 hd2 with
      | .ok (it2, last2) =>
        if it2 = last2 then .ok false
        else
          let last := endOfRange .multi (eqOf key eqK v1) h1 it
          match walk .multi h1 last n it, walk .multi h2 last2 n it2 with
          | .ok m1, .ok m2 =>
            if m1.length ≠ m2.length then .ok false
            else if groupEq veq (m1.map v1) (m2.map v2) then equalsLoopN n h1 hd1 v1 h2 a2 hd2 v2 k last
            else .ok false
          | _, _ => .hang
      | .threw _ => .hang
      | .ub => .ub
      | .hang => .hang

/-- `equals`: hashed_index.hpp:1189-1229, also `operator==` (1788-1792). `s1`, `s2` are the sizes. -/
def equals (n : Nat) (c : Cat) (s1 : Nat) (h1 : Heap) (hd1 : Id) (v1 : Id → V) (s2 : Nat) (h2 : Heap) (a2 : Arr) (hd2 : Id) (v2 : Id → V) : Out Bool :=
  if s1 ≠ s2 then .ok false
  else
    match c with
    | .uniq => equalsLoopU key eqK hashK veq n h1 hd1 v1 h2 a2 hd2 v2 n (begin h1 hd1)
    | .multi => equalsLoopN key eqK hashK veq n h1 hd1 v1 h2 a2 hd2 v2 n (begin h1 hd1)

end Model

/-! ## Equality up to order -/

section Lists
variable {V : Type} {veq : V → V → Bool}

theorem _root_.MI.EqRel.comm (e : EqRel veq) (v w : V) : veq v w = veq w v := by
  rw [Bool.eq_iff_iff]; exact ⟨e.symm, e.symm⟩

theorem _root_.MI.EqRel.congr (e : EqRel veq) {v w : V} (h : veq v w = true) (u : V) : veq v u = veq w u := by
  rw [Bool.eq_iff_iff]; exact ⟨fun k => e.trans (e.symm h) k, fun k => e.trans h k⟩

/-- Predicates that respect the equality have the same counts. -/
theorem _root_.MI.SameUpTo.countP {l l' : List V} (s : SameUpTo veq l l') {p : V → Bool} (hp : ∀ v w, veq v w = true → p v = p w) :
    l.countP p = l'.countP p := by
  obtain ⟨m, pm, f⟩ := s
  rw [← pm.countP_eq]
  clear pm
  induction f with
  | nil => rfl
  | cons h _ ih => simp [List.countP_cons, ih, hp _ _ h]

theorem _root_.MI.SameUpTo.length {l l' : List V} (s : SameUpTo veq l l') : l.length = l'.length := by
  have := s.countP (p := fun _ => true) (fun _ _ _ => rfl)
  simpa using this

/-- Equal counts and lengths suffice. -/
theorem sameUpTo_of_counts (e : EqRel veq) : ∀ (l l' : List V), l.length = l'.length →
    (∀ s ∈ l, l.countP (fun y => veq y s) = l'.countP (fun y => veq y s)) → SameUpTo veq l l'
  | [], l', hl, _ => by
    have : l' = [] := List.eq_nil_of_length_eq_zero (by simpa using hl.symm)
    subst this
    exact ⟨[], List.Perm.refl _, .nil⟩
  | s :: r, l', hl, hc => by
    have h1 := hc s (by simp)
    rw [List.countP_cons, if_pos (e.refl s)] at h1
    have h2 : 0 < l'.countP (fun y => veq y s) := by omega
    obtain ⟨y, ym, ye⟩ := List.countP_pos_iff.1 h2
    obtain ⟨l1, l2, rfl⟩ := List.append_of_mem ym
    have ih := sameUpTo_of_counts e r (l1 ++ l2) (by simp at hl ⊢; omega) (by
      intro t ht
      have h3 := hc t (by simp [ht])
      have h4 : veq s t = veq y t := e.congr (e.symm ye) t
      simp only [List.countP_cons, List.countP_append] at h3 ⊢
      rw [h4] at h3
      omega)
    obtain ⟨m, pm, f⟩ := ih
    exact ⟨y :: m, (List.Perm.cons y pm).trans List.perm_middle.symm, .cons (e.symm ye) f⟩

/-- The scan decides if all counts agree. -/
theorem scanLoop_spec (e : EqRel veq) (m2 : List V) : ∀ (r pre : List V),
    (∀ s ∈ pre, (pre ++ r).countP (fun y => veq y s) = m2.countP (fun y => veq y s)) →
    (scanLoop veq m2 pre r = true ↔ ∀ s ∈ pre ++ r, (pre ++ r).countP (fun y => veq y s) = m2.countP (fun y => veq y s))
  | [], pre, h => by simpa [scanLoop] using h
  | s :: r, pre, h => by
    have e1 : pre ++ s :: r = (pre ++ [s]) ++ r := by simp
    simp only [scanLoop]
    split
    · rename_i k
      rw [List.any_eq_true] at k
      obtain ⟨y, ym, ye⟩ := k
      rw [e1] at h ⊢
      apply scanLoop_spec e m2 r (pre ++ [s])
      intro t ht
      rcases List.mem_append.1 ht with ht | ht
      · exact h t ht
      · have : t = s := by simpa using ht
        subst this
        have := h y ym
        have c : ∀ z, veq z y = veq z t := fun z => by rw [e.comm z y, e.comm z t]; exact e.congr ye z
        simpa only [c] using this
    · rename_i k
      have k : ∀ y ∈ pre, veq y s = false := by
        intro y hy
        by_contra q
        exact k (List.any_eq_true.2 ⟨y, hy, by simpa using q⟩)
      have c0 : pre.countP (fun y => veq y s) = 0 := List.countP_eq_zero.2 (by intro y hy; simp [k y hy])
      have c1 : (pre ++ s :: r).countP (fun y => veq y s) = (s :: r).countP (fun y => veq y s) := by
        rw [List.countP_append, c0]; omega
      have c2 : 0 < (s :: r).countP (fun y => veq y s) := by rw [List.countP_cons, if_pos (e.refl s)]; omega
      split
      · rename_i q
        constructor
        · intro k; cases k
        · intro k
          exfalso
          have := k s (by simp)
          rw [c1] at this
          simp only [Bool.or_eq_true, decide_eq_true_eq] at q
          rcases q with q | q
          · omega
          · exact q this.symm
      · rename_i q
        simp only [Bool.or_eq_true, decide_eq_true_eq, not_or, Classical.not_not] at q
        rw [e1] at h ⊢
        apply scanLoop_spec e m2 r (pre ++ [s])
        intro t ht
        rcases List.mem_append.1 ht with ht | ht
        · exact h t ht
        · have : t = s := by simpa using ht
          subst this
          rw [← e1, c1]
          exact q.2.symm

/-- The permutation test is exact. -/
theorem groupEq_spec (e : EqRel veq) : ∀ (l l' : List V), l.length = l'.length → (groupEq veq l l' = true ↔ SameUpTo veq l l')
  | [], l', hl => by
    have : l' = [] := List.eq_nil_of_length_eq_zero (by simpa using hl.symm)
    subst this
    exact ⟨fun _ => ⟨[], List.Perm.refl _, .nil⟩, fun _ => rfl⟩
  | s :: r, [], hl => by simp at hl
  | s :: r, t :: q, hl => by
    have resp : ∀ z v w, veq v w = true → veq v z = veq w z := fun z v w h => e.congr h z
    simp only [groupEq]
    split
    · rename_i k
      rw [groupEq_spec e r q (by simpa using hl)]
      constructor
      · rintro ⟨m, pm, f⟩
        exact ⟨t :: m, List.Perm.cons t pm, .cons k f⟩
      · intro h
        apply sameUpTo_of_counts e _ _ (by simpa using hl)
        intro z _
        have := h.countP (p := fun y => veq y z) (resp z)
        simp only [List.countP_cons, e.congr k z] at this
        omega
    · rw [scanLoop_spec e (t :: q) (s :: r) [] (by simp)]
      simp only [List.nil_append]
      constructor
      · exact sameUpTo_of_counts e _ _ hl
      · intro h z _
        exact h.countP (p := fun y => veq y z) (resp z)

end Lists

/-! ## Correctness -/

section Correct
variable {V K : Type} {key : V → K} {eqK : K → K → Bool} {hashK : K → Nat} {veq : V → V → Bool}
variable {h1 h2 : Heap} {a1 a2 : Arr} {hd1 hd2 : Id} {v1 v2 : Id → V} {xs ys : List Id} {n : Nat}

theorem Holds.walk {c : Cat} {eq : Id → Id → Bool} {hash : Id → Nat} {h : Heap} {a : Arr} {hd : Id} (w : Holds c eq hash h a hd xs) {post : List Id} :
    ∀ (m u : List Id) (n : Nat), xs = u ++ m ++ post → m.length ≤ n → Hash.walk c h (post.headD hd) n ((m ++ post).headD hd) = .ok m
  | [], u, n, e, hn => by cases n <;> simp [Hash.walk]
  | x :: m, u, 0, e, hn => by simp at hn
  | x :: m, u, n + 1, e, hn => by
    have af := w.after (x := x) (u := u) (v := m ++ post) (by rw [e]; simp)
    have ne : x ≠ post.headD hd := by
      have nd := w.nodup
      rw [e] at nd
      cases post with
      | nil =>
        rintro rfl
        simp at nd
      | cons z post =>
        rintro rfl
        simp only [List.headD_cons, List.nodup_cons, List.nodup_append] at nd
        exact nd.2.2.2 x (by simp) x (by simp) rfl
    have ih := w.walk (post := post) m (u ++ [x]) n (by rw [e]; simp) (by simpa using hn)
    simp only [List.cons_append, List.headD_cons, Hash.walk, if_neg ne, af]
    rw [ih]

/-- What the loop of `equals` for unique indices decides. -/
theorem equalsLoopU_spec (eh : EqHash eqK hashK) (w1 : Holds .uniq (eqOf key eqK v1) (hashOf key hashK v1) h1 a1 hd1 xs)
    (w2 : Holds .uniq (eqOf key eqK v2) (hashOf key hashK v2) h2 a2 hd2 ys) (hn : ys.length ≤ n) :
    ∀ (r u : List Id) (k : Nat), xs = u ++ r → r.length ≤ k →
      ∃ b, equalsLoopU key eqK hashK veq n h1 hd1 v1 h2 a2 hd2 v2 k (r.headD hd1) = .ok b ∧
        (b = true ↔ ∀ x ∈ r, ∃ y ∈ ys, eqK (key (v1 x)) (key (v2 y)) = true ∧ veq (v1 x) (v2 y) = true)
  | [], u, k, e, hk => ⟨true, by cases k <;> simp [equalsLoopU], by simp⟩
  | x :: r, u, 0, e, hk => by simp at hk
  | x :: r, u, k + 1, e, hk => by
    have af := w1.after (x := x) (u := u) (v := r) e
    have xh : x ≠ hd1 := by
      rintro rfl
      have := w1.nodup
      rw [e] at this
      simp at this
    have fi := w2.find (n := n) (p := fun y => eqK (key (v1 x)) (key (v2 y))) (hk := hashK (key (v1 x))) (eh.comap _) hn
      (fun y z p q => eh.trans p q) (fun y z p q => eh.trans (eh.symm p) q) (fun y p => eh.cons p)
    have xk := w2.unique (eh.comap (fun y => key (v2 y)))
    obtain ⟨b, e1, e2⟩ := equalsLoopU_spec eh w1 w2 hn r (u ++ [x]) k (by rw [e]; simp) (by simpa using hk)
    simp only [List.headD_cons, equalsLoopU, if_neg xh, fi, af, e1]
    cases hf : ys.find? (fun y => eqK (key (v1 x)) (key (v2 y))) with
    | none =>
      simp only [Option.getD_none, decide_true, Bool.true_or, if_true]
      refine ⟨false, rfl, ?_⟩
      constructor
      · intro k; cases k
      · intro k
        obtain ⟨y, ym, ye, -⟩ := k x (by simp)
        have := List.find?_eq_none.1 hf y ym
        rw [ye] at this
        exact absurd rfl this
    | some y =>
      have ym := List.mem_of_find?_eq_some hf
      have ye : eqK (key (v1 x)) (key (v2 y)) = true := by simpa using List.find?_some hf
      have yh : y ≠ hd2 := by
        rintro rfl
        exact (List.nodup_cons.1 w2.nodup).1 ym
      simp only [Option.getD_some, yh, decide_false, Bool.false_or]
      by_cases q : veq (v1 x) (v2 y) = true
      · simp only [q, Bool.not_true, Bool.false_eq_true, if_false]
        refine ⟨b, rfl, ?_⟩
        rw [e2]
        constructor
        · intro k z hz
          rcases List.mem_cons.1 hz with rfl | hz
          · exact ⟨y, ym, ye, q⟩
          · exact k z hz
        · exact fun k z hz => k z (by simp [hz])
      · simp only [Bool.not_eq_true] at q
        simp only [q, Bool.not_false, if_true]
        refine ⟨false, rfl, ?_⟩
        constructor
        · intro k; cases k
        · intro k
          exfalso
          obtain ⟨z, zm, ze, zq⟩ := k x (by simp)
          have : z = y := by
            by_contra ne
            have h3 : eqK (key (v2 z)) (key (v2 y)) = true := eh.trans (eh.symm ze) ye
            obtain ⟨l1, l2, hl⟩ := List.append_of_mem ym
            rw [hl] at zm xk
            simp only [List.pairwise_append, List.pairwise_cons] at xk
            simp only [List.mem_append, List.mem_cons] at zm
            rcases zm with zm | zm | zm
            · have := xk.2.2 z zm y (by simp)
              unfold eqOf at this
              rw [h3] at this
              cases this
            · exact ne zm
            · have := xk.2.1.1 z zm
              unfold eqOf at this
              rw [eh.symm h3] at this
              cases this
          subst this
          rw [zq] at q
          cases q

/-- What the loop of `equals` for non-unique indices decides. -/
theorem equalsLoopN_spec (eh : EqHash eqK hashK) (er : EqRel veq) (w1 : Holds .multi (eqOf key eqK v1) (hashOf key hashK v1) h1 a1 hd1 xs)
    (w2 : Holds .multi (eqOf key eqK v2) (hashOf key hashK v2) h2 a2 hd2 ys) (hn : ys.length ≤ n) (hn1 : xs.length ≤ n) :
    ∀ (k : Nat) (r u : List Id), xs = u ++ r → r.length ≤ k → (∀ x ∈ u, ∀ y ∈ r, eqK (key (v1 x)) (key (v1 y)) = false) →
      ∃ b, equalsLoopN key eqK hashK veq n h1 hd1 v1 h2 a2 hd2 v2 k (r.headD hd1) = .ok b ∧
        (b = true ↔ ∀ x ∈ r, SameUpTo veq ((xs.filter (fun y => eqK (key (v1 x)) (key (v1 y)))).map v1)
          ((ys.filter (fun y => eqK (key (v1 x)) (key (v2 y)))).map v2))
  | k, [], u, e, hk, _ => ⟨true, by cases k <;> simp [equalsLoopN], by simp⟩
  | 0, x :: r, u, e, hk, _ => by simp at hk
  | k + 1, x :: r, u, e, hk, hu => by
    have xh : x ≠ hd1 := by
      rintro rfl
      have := w1.nodup
      rw [e] at this
      simp at this
    have er2 := w2.equalRange (n := n) (p := fun y => eqK (key (v1 x)) (key (v2 y))) (hk := hashK (key (v1 x))) (eh.comap _) hn
      (fun y z p q => eh.trans p q) (fun y z p q => eh.trans (eh.symm p) q) (fun y p => eh.cons p)
    simp only [List.headD_cons, equalsLoopN, if_neg xh]
    -- the group of `x` in the first index
    have g1 : ∃ m v, r = m ++ v ∧ (∀ y ∈ x :: m, eqK (key (v1 x)) (key (v1 y)) = true) ∧ (∀ y ∈ u ++ v, eqK (key (v1 x)) (key (v1 y)) = false) ∧
        endOfRange .multi (eqOf key eqK v1) h1 x = v.headD hd1 := by
      have fl := w1.findLoop (n := n) (p := fun y => eqK (key (v1 x)) (key (v1 y))) (hk := hashK (key (v1 x))) (eh.comap _) hn1
        (fun y z p q => eh.trans p q) (fun y z p q => eh.trans (eh.symm p) q) (fun y p => eh.cons p)
      rcases fl with ⟨-, q⟩ | ⟨f, m, u', v, -, e', q1, q2, q3⟩
      · have := q x (by rw [e]; simp)
        rw [eh.refl] at this
        cases this
      · -- `x` is the first element equal to itself
        have split : ∀ (u u' : List Id), u ++ x :: r = u' ++ (f :: m) ++ v → (∀ y ∈ u, eqK (key (v1 x)) (key (v1 y)) = false) →
            (∀ y ∈ u', eqK (key (v1 x)) (key (v1 y)) = false) → u = u' ∧ x = f ∧ r = m ++ v := by
          intro u
          induction u with
          | nil =>
            intro u' e h3 h4
            cases u' with
            | nil => simpa using e
            | cons q u' =>
              simp only [List.nil_append, List.cons_append, List.cons.injEq] at e
              have := h4 q (by simp)
              rw [← e.1, eh.refl] at this
              cases this
          | cons p u ih =>
            intro u' e h3 h4
            cases u' with
            | nil =>
              simp only [List.nil_append, List.cons_append, List.cons.injEq] at e
              have := h3 p (by simp)
              rw [e.1, q1 f (by simp)] at this
              cases this
            | cons q u' =>
              simp only [List.cons_append, List.cons.injEq] at e
              have := ih u' e.2 (fun y hy => h3 y (by simp [hy])) (fun y hy => h4 y (by simp [hy]))
              exact ⟨by rw [this.1, e.1], this.2⟩
        have hu' : ∀ y ∈ u, eqK (key (v1 x)) (key (v1 y)) = false := fun y hy => by rw [eh.comm]; exact hu y hy x (by simp)
        obtain ⟨rfl, rfl, rfl⟩ := split u u' (by rw [← e, e']) hu' (fun y hy => q2 y (by simp [hy]))
        exact ⟨m, v, rfl, q1, q2, q3⟩
    obtain ⟨m, v, rfl, q1, q2, q3⟩ := g1
    have f1 : xs.filter (fun y => eqK (key (v1 x)) (key (v1 y))) = x :: m := by
      have k1 : u.filter (fun y => eqK (key (v1 x)) (key (v1 y))) = [] := List.filter_eq_nil_iff.2 (by intro y hy; simp [q2 y (by simp [hy])])
      have k2 : v.filter (fun y => eqK (key (v1 x)) (key (v1 y))) = [] := List.filter_eq_nil_iff.2 (by intro y hy; simp [q2 y (by simp [hy])])
      have k3 : (x :: m).filter (fun y => eqK (key (v1 x)) (key (v1 y))) = x :: m := List.filter_eq_self.2 (by intro y hy; simp [q1 y hy])
      have : u ++ x :: (m ++ v) = u ++ ((x :: m) ++ v) := by simp
      rw [e, this, List.filter_append, List.filter_append, k1, k2, k3]
      simp
    have cl : ∀ z ∈ x :: m, ∀ y, eqK (key (v1 z)) y = eqK (key (v1 x)) y := fun z hz y => eh.congr (eh.symm (q1 z hz)) y
    rcases er2 with ⟨p1, p2⟩ | ⟨u2, f, m2, v2', p1, p2, p3, p4⟩
    · rw [p1]
      simp only [if_true, if_neg xh]
      refine ⟨false, rfl, ?_⟩
      constructor
      · intro k; cases k
      · intro k
        have := (k x (by simp)).length
        rw [f1, List.filter_eq_nil_iff.2 (by intro y hy; simp [p2 y hy])] at this
        simp at this
    · have f2 : ys.filter (fun y => eqK (key (v1 x)) (key (v2 y))) = f :: m2 := by
        have k1 : u2.filter (fun y => eqK (key (v1 x)) (key (v2 y))) = [] := List.filter_eq_nil_iff.2 (by intro y hy; simp [p4 y (by simp [hy])])
        have k2 : v2'.filter (fun y => eqK (key (v1 x)) (key (v2 y))) = [] := List.filter_eq_nil_iff.2 (by intro y hy; simp [p4 y (by simp [hy])])
        have k3 : (f :: m2).filter (fun y => eqK (key (v1 x)) (key (v2 y))) = f :: m2 := List.filter_eq_self.2 (by intro y hy; simp [p3 y hy])
        rw [p2, List.filter_append, List.filter_append, k1, k2, k3]
        simp
      have ne : f ≠ v2'.headD hd2 := by
        have nd := w2.nodup
        rw [p2] at nd
        cases v2' with
        | nil =>
          rintro rfl
          simp at nd
        | cons z post =>
          rintro rfl
          simp only [List.headD_cons, List.nodup_cons, List.nodup_append] at nd
          exact nd.2.2.2 f (by simp) f (by simp) rfl
      have wk1 := w1.walk (post := v) (x :: m) u n (by rw [e]; simp) (by rw [e] at hn1; simp at hn1 ⊢; omega)
      have wk2 := w2.walk (post := v2') (f :: m2) u2 n p2 (by rw [p2] at hn; simp at hn ⊢; omega)
      simp only [List.cons_append, List.headD_cons] at wk1 wk2
      rw [p1]
      simp only [if_neg ne, q3]
      rw [wk1, wk2, if_neg xh]
      simp only
      by_cases hl : (x :: m).length = (f :: m2).length
      · rw [if_neg (by simpa using hl)]
        have gs := groupEq_spec er ((x :: m).map v1) ((f :: m2).map v2) (by simpa using hl)
        by_cases hg : groupEq veq ((x :: m).map v1) ((f :: m2).map v2) = true
        · rw [if_pos hg]
          obtain ⟨b, e1, e2⟩ := equalsLoopN_spec eh er w1 w2 hn hn1 k v (u ++ x :: m) (by rw [e]; simp)
            (by simp at hk ⊢; omega) (by
              intro y hy z hz
              rcases List.mem_append.1 hy with hy | hy
              · exact hu y hy z (by simp [hz])
              · rw [cl y hy]; exact q2 z (by simp [hz]))
          refine ⟨b, e1, ?_⟩
          rw [e2]
          constructor
          · intro k z hz
            rw [← List.cons_append] at hz
            rcases List.mem_append.1 hz with hz | hz
            · simp only [cl z hz]
              rw [f1, f2]
              exact gs.1 hg
            · exact k z hz
          · exact fun k z hz => k z (by simp [hz])
        · rw [if_neg hg]
          refine ⟨false, rfl, ?_⟩
          constructor
          · intro k; cases k
          · intro k
            have := k x (by simp)
            rw [f1, f2] at this
            exact absurd (gs.2 this) hg
      · rw [if_pos (by simpa using hl)]
        refine ⟨false, rfl, ?_⟩
        constructor
        · intro k; cases k
        · intro k
          have := (k x (by simp)).length
          rw [f1, f2, List.length_map, List.length_map] at this
          exact absurd this hl

/-- `operator==` is equality of contents. -/
theorem equals_spec {c : Cat} (eh : EqHash eqK hashK) (er : EqRel veq) (hv : ∀ v w, veq v w = true → eqK (key v) (key w) = true)
    (w1 : Holds c (eqOf key eqK v1) (hashOf key hashK v1) h1 a1 hd1 xs)
    (w2 : Holds c (eqOf key eqK v2) (hashOf key hashK v2) h2 a2 hd2 ys) (hn : ys.length ≤ n) (hn1 : xs.length ≤ n) :
    ∃ b, equals key eqK hashK veq n c xs.length h1 hd1 v1 ys.length h2 a2 hd2 v2 = .ok b ∧
      (b = true ↔ SameUpTo veq (xs.map v1) (ys.map v2)) := by
  unfold equals
  by_cases hl : xs.length = ys.length
  · rw [if_neg (by simpa using hl), w1.begin]
    have resp : ∀ z v w, veq v w = true → veq v z = veq w z := fun z v w h => er.congr h z
    cases c with
    | uniq =>
      obtain ⟨b, e1, e2⟩ := equalsLoopU_spec (veq := veq) eh w1 w2 hn xs [] n rfl hn1
      refine ⟨b, e1, ?_⟩
      rw [e2]
      have cnt : ∀ {h : Heap} {a : Arr} {hd : Id} {zs : List Id} {v : Id → V},
          Holds .uniq (eqOf key eqK v) (hashOf key hashK v) h a hd zs → ∀ t, zs.countP (fun y => veq (v y) t) ≤ 1 := by
        intro h a hd zs v w t
        have u := w.unique (eh.comap (fun y => key (v y)))
        clear w
        induction zs with
        | nil => simp
        | cons z zs ih =>
          rw [List.pairwise_cons] at u
          have ih := ih u.2
          rw [List.countP_cons]
          split
          · rename_i k
            have : zs.countP (fun y => veq (v y) t) = 0 := by
              rw [List.countP_eq_zero]
              intro y hy q
              have := u.1 y hy
              unfold eqOf at this
              rw [hv _ _ (er.trans k (er.symm q))] at this
              cases this
            omega
          · omega
      constructor
      · intro k
        apply sameUpTo_of_counts er _ _ (by simpa using hl)
        intro s hs
        obtain ⟨x, xm, rfl⟩ := List.mem_map.1 hs
        obtain ⟨y, ym, -, ye⟩ := k x xm
        rw [List.countP_map, List.countP_map]
        have c1 : 0 < xs.countP ((fun y => veq y (v1 x)) ∘ v1) := List.countP_pos_iff.2 ⟨x, xm, er.refl _⟩
        have c2 : 0 < ys.countP ((fun y => veq y (v1 x)) ∘ v2) := List.countP_pos_iff.2 ⟨y, ym, er.symm ye⟩
        have c3 := cnt w1 (v1 x)
        have c4 := cnt w2 (v1 x)
        have e3 : xs.countP ((fun y => veq y (v1 x)) ∘ v1) = xs.countP (fun y => veq (v1 y) (v1 x)) := rfl
        have e4 : ys.countP ((fun y => veq y (v1 x)) ∘ v2) = ys.countP (fun y => veq (v2 y) (v1 x)) := rfl
        omega
      · intro s x xm
        have c := s.countP (p := fun y => veq y (v1 x)) (resp _)
        have c1 : 0 < (xs.map v1).countP (fun y => veq y (v1 x)) := List.countP_pos_iff.2 ⟨v1 x, List.mem_map.2 ⟨x, xm, rfl⟩, er.refl _⟩
        rw [c] at c1
        obtain ⟨t, tm, te⟩ := List.countP_pos_iff.1 c1
        obtain ⟨y, ym, rfl⟩ := List.mem_map.1 tm
        exact ⟨y, ym, hv _ _ (er.symm te), er.symm te⟩
    | multi =>
      obtain ⟨b, e1, e2⟩ := equalsLoopN_spec eh er w1 w2 hn hn1 n xs [] rfl hn1 (by simp)
      refine ⟨b, e1, ?_⟩
      rw [e2]
      have cf : ∀ (zs : List Id) (v : Id → V) (x : Id), ((zs.filter (fun y => eqK (key (v1 x)) (key (v y)))).map v).countP (fun y => veq y (v1 x)) =
          (zs.map v).countP (fun y => veq y (v1 x)) := by
        intro zs v x
        rw [List.countP_map, List.countP_map, List.countP_filter]
        congr 1
        funext y
        simp only [Function.comp_apply]
        by_cases k : veq (v y) (v1 x) = true
        · simp [k, hv _ _ (er.symm k)]
        · simp [k]
      constructor
      · intro k
        apply sameUpTo_of_counts er _ _ (by simpa using hl)
        intro s hs
        obtain ⟨x, xm, rfl⟩ := List.mem_map.1 hs
        have := (k x xm).countP (p := fun y => veq y (v1 x)) (resp _)
        rwa [cf, cf] at this
      · intro s x xm
        have lf : ∀ (zs : List Id) (v : Id → V), ((zs.filter (fun y => eqK (key (v1 x)) (key (v y)))).map v) =
            (zs.map v).filter (fun t => eqK (key (v1 x)) (key t)) := by
          intro zs v
          rw [List.filter_map]
          rfl
        have rk : ∀ v w, veq v w = true → eqK (key (v1 x)) (key v) = eqK (key (v1 x)) (key w) := by
          intro v w h
          rw [eh.comm _ (key v), eh.comm _ (key w)]
          exact eh.congr (hv _ _ h) _
        apply sameUpTo_of_counts er
        · rw [lf, lf, ← List.countP_eq_length_filter, ← List.countP_eq_length_filter]
          exact s.countP rk
        · intro t ht
          rw [lf, lf, List.countP_filter, List.countP_filter]
          apply s.countP
          intro v w h
          rw [rk v w h, er.congr h t]
  · rw [if_pos (by simpa using hl)]
    refine ⟨false, rfl, ?_⟩
    constructor
    · intro k; cases k
    · intro s
      have := s.length
      rw [List.length_map, List.length_map] at this
      exact absurd this hl

end Correct
end MI.Hash
