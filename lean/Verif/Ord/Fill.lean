import Verif.Ord.ActsHard
/-!
# Construction of an ordered index from a range

The loop of the constructors from a range and of the assignment of a list, with rounds counted. (`insert(first,last)` of an ordered index gives no hints.)
-/
namespace MI.Ord
open MI
variable {K : Type} (lt : K → K → Bool) (u : Bool) (hd : Id)

/-- What `insert_` gives: the new node `x`, or the element that stands against it. ord_index_impl.hpp:862-879. -/
def Point.landed (x : Id) : Point → Id
  | .accept _ _ => x
  | .reject q => q

/-- `hint=make_iterator(insert_(*first,hint.get_node()).first);++hint;` for every element of a range: multi_index_container.hpp:241-246, 270-275, 400-405. An element of the range is given by its key and by the node that it gets if it is inserted. `insert_` gives the new element, or the
one that stands against it. For an index with no other indices below, as `act`. -/
def fill : Idx K → Id → List (Id × K) → Option (Idx K × Id × Rounds)
  | s, hint, [] => some (s, hint, ⟨0, 0⟩)
  | s, hint, (x, k) :: l =>
    match pointS (upd s.key x k) lt u (s.count + 4) s.h hd k (some hint), act lt u (s.count + 4) hd s (.insert x k (some hint)) with
    | some (p, _), some (s', r) =>
      match incrementS s'.h (s'.count + 4) (p.landed x) with
      | none => none
      | some (next, w) => (fill s' next l).map fun (s'', hint', r') => (s'', hint', (r.add ⟨w, 0⟩).add r')
    | _, _ => none

variable {lt u hd} {n : Nat}

/-- With the hint `end()` an element that belongs at the end is put there. -/
theorem end_point (sw : StrictWeak lt) {key : Id → K} {h : Heap} {xs : List Id} {k : K} (hr : Rep h hd xs) (ho : OrderedBy lt u key xs)
    (hn : xs.length + 3 ≤ n) (hk : ∀ z ∈ xs, mayPrecede lt u (key z) k) :
    ∃ side pos, pointS key lt u n h hd k (some hd) = some (.accept side pos, 0) ∧ PointAt h hd side pos xs [] := by
  have hs := ho.sorted sw
  have hr' : Rep h hd (xs ++ []) := by simpa using hr
  have hs' : SortedBy key lt (xs ++ []) := by simpa using hs
  have hn' : (xs ++ []).length + 3 ≤ n := by simpa using hn
  have main : ∃ side pos, (if u then pointU key lt n h hd k (some hd) else pointN key lt n h hd k (some hd)) = some (.accept side pos) ∧ PointAt h hd side pos xs [] := by
    cases u with
    | true =>
      rcases hintedPointU_spec sw hr' hs' hn' k with ⟨side, pos, a, b, e, e1, e2, -, e3⟩ | ⟨p, hp, -, e⟩
      · have hb : b = [] := by
          rcases b with _ | ⟨c, b⟩
          · rfl
          · have h1 := e3 c (by simp)
            have h2 : lt (key c) k = true := hk c (by rw [← List.append_nil xs, e1]; simp)
            rw [sw.asymm h1] at h2; cases h2
        subst hb
        simp only [List.append_nil] at e1
        subst e1
        exact ⟨side, pos, e, e2⟩
      · have h2 : lt (key p) k = true := hk p (by simpa using hp)
        simp [equivOf, h2] at e
    | false =>
      obtain ⟨side, pos, a, b, e, e1, e2, -, e3⟩ := hintedPointN_spec sw hr' hs' hn' k
      have hl := congrArg List.length e1
      simp only [List.length_append, List.length_nil] at hl
      have hab : a = xs ∧ b = [] := by
        rcases e3 with e3 | ⟨e3, -⟩ | ⟨e3, e4⟩
        · exact e3
        · omega
        · exfalso
          rcases b with _ | ⟨c, b⟩
          · simp at hl; omega
          · have h1 := e4 c (by simp)
            have h2 : lt k (key c) = false := hk c (by rw [← List.append_nil xs, e1]; simp)
            rw [h1] at h2; cases h2
      obtain ⟨rfl, rfl⟩ := hab
      exact ⟨side, pos, e, e2⟩
  obtain ⟨side, pos, e, hp⟩ := main
  rw [← pointS_fst] at e
  obtain ⟨w, e⟩ := some_fst e
  have : w = 0 := pointS_ends (c := 0) (x := 0) hr hn (.inr rfl) ⟨xs, [], by simp, rfl, hk, by simp⟩ e
  subst this
  exact ⟨side, pos, e, hp⟩

/-- A range that belongs at the end, in order. -/
theorem fill_sorted (sw : StrictWeak lt) : ∀ (l : List (Id × K)) {s : Idx K} {xs : List Id} {P : Nat}, RepP s.h hd xs P → OrderedBy lt u s.key xs → s.count = xs.length →
    (hd :: (xs ++ l.map Prod.fst)).Nodup → (∀ p ∈ l, p.1 ≠ 0) → (∀ z ∈ xs, ∀ p ∈ l, mayPrecede lt u (s.key z) p.2) →
    (l.map Prod.snd).Pairwise (mayPrecede lt u) →
    ∃ s' r P', fill lt u hd s hd l = some (s', hd, r) ∧ RepP s'.h hd (xs ++ l.map Prod.fst) P' ∧ OrderedBy lt u s'.key (xs ++ l.map Prod.fst) ∧
      s'.count = xs.length + l.length ∧ (∀ z ∈ xs, s'.key z = s.key z) ∧ (∀ p ∈ l, s'.key p.1 = p.2) ∧ r.fix + P' ≤ P + 5 * l.length ∧
      r.walk ≤ l.length * (2 * Nat.log2 (xs.length + l.length + 1)) ∧ ∀ b, b * l.length ≤ r.walk + b * (4 ^ b - xs.length) := by
  intro l
  induction l with
  | nil =>
    intro s xs P hr ho hc _ _ _ _
    exact ⟨s, ⟨0, 0⟩, P, rfl, by simpa using hr, by simpa using ho, by simpa using hc, fun _ _ => rfl, by simp, by simp, by simp, by simp⟩
  | cons q l ih =>
    obtain ⟨x, k⟩ := q
    intro s xs P hr ho hc nd nz hpre hsd
    have hn : xs.length + 4 ≤ s.count + 4 := by omega
    simp only [List.map_cons, List.length_cons] at nd hsd ⊢
    have hx : x ∉ hd :: xs := by
      intro h
      rcases List.mem_cons.1 h with rfl | h
      · simp at nd
      · simp [List.nodup_append] at nd
        exact absurd rfl (nd.2.2.2 x h).1
    have hx0 : x ≠ 0 := nz (x, k) (by simp)
    have ne : ∀ z ∈ xs, z ≠ x := fun z hz e => hx (e ▸ List.mem_cons_of_mem _ hz)
    have ho' : OrderedBy lt u (upd s.key x k) xs := ho.congr (fun z hz => upd_other _ _ (ne z hz))
    have hfit : ∀ z ∈ xs, mayPrecede lt u (upd s.key x k z) k := fun z hz => by
      rw [upd_other _ _ (ne z hz)]; exact hpre z hz (x, k) (by simp)
    obtain ⟨side, pos, e, hp⟩ := end_point sw hr.rep ho' (n := s.count + 4) (by omega) hfit
    have hr0 : RepP s.h hd (xs ++ []) P := by simpa using hr
    obtain ⟨h1, f, P1, e1, r1, c1, -⟩ := linkP_at (N := s.count + 4) hr0 hp (by simpa using hx) hx0 (by simp; omega)
    have ho1 := OrderedBy.insert (x := x) (k := k) (a := xs) (b := []) (by simpa using ho') (by simpa using fun h => hx (List.mem_cons_of_mem _ h)) ⟨hfit, by simp⟩
    rw [upd_idem] at ho1
    obtain ⟨w, e2, hw⟩ := incrementS_le (u := xs) (v := []) (N := s.count + 1 + 4) r1.rep (by simp; omega)
    have hwb : ∀ b, 4 ^ b ≤ xs.length + 1 → b ≤ w := by
      intro b hb
      obtain ⟨w', e3, hw'⟩ := incrementS_last (u := xs) (N := s.count + 1 + 4) (b := b) r1.rep (by simp; omega) (by simpa using hb)
      rw [e2] at e3
      cases e3
      exact hw'
    have hlx : ∀ p ∈ l, p.1 ≠ x := by
      rintro p hp rfl
      simp [List.nodup_append] at nd
      exact nd.2.2.1.1 p.2 hp
    obtain ⟨s', r, P', f1, f2, f3, f4, f5, f6, f7, f8, f9⟩ := ih (s := ⟨upd s.key x k, h1, s.count + 1⟩) (xs := xs ++ [x]) (P := P1) r1 ho1 (by simp [hc])
      (by simpa using nd) (fun p hp => nz p (by simp [hp]))
      (fun z hz p hp => by
        rcases List.mem_append.1 hz with hz | hz
        · show mayPrecede lt u (upd s.key x k z) p.2
          rw [upd_other _ _ (ne z hz)]; exact hpre z hz p (by simp [hp])
        · obtain rfl := List.mem_singleton.1 hz
          show mayPrecede lt u (upd s.key z k z) p.2
          rw [upd_same]
          exact (List.pairwise_cons.1 hsd).1 p.2 (List.mem_map.2 ⟨p, hp, rfl⟩))
      (List.pairwise_cons.1 hsd).2
    refine ⟨s', ((⟨0, f⟩ : Rounds).add ⟨w, 0⟩).add r, P', ?_, by simpa using f2, by simpa using f3, by simp at f4; omega, fun z hz => ?_, fun p hp => ?_, ?_, ?_, ?_⟩
    · simp only [fill, act, e, e1, Point.landed]
      rw [e2]
      show Option.map _ (fill lt u hd _ hd l) = _
      rw [f1]
      rfl
    · rw [f5 z (by simp [hz])]; exact upd_other _ _ (ne z hz)
    · rcases List.mem_cons.1 hp with rfl | hp
      · rw [f5 x (by simp)]; exact upd_same _ _ _
      · exact f6 p hp
    · simp only [Rounds.add] at *; omega
    · have hlog : Nat.log2 (xs.length + 1 + 1) ≤ Nat.log2 (xs.length + (l.length + 1) + 1) := by
        rw [Nat.le_log2 (by omega)]
        exact Nat.le_trans (Nat.log2_self_le (by omega)) (by omega)
      simp only [List.length_append, List.length_cons, List.length_nil, Nat.zero_add] at hw f8
      simp only [Rounds.add]
      rw [Nat.succ_mul]
      have e5 : xs.length + 1 + l.length + 1 = xs.length + (l.length + 1) + 1 := by omega
      rw [e5] at f8
      omega
    · intro b
      have h9 := f9 b
      simp only [Rounds.add, List.length_append, List.length_cons, List.length_nil, Nat.zero_add, Nat.mul_succ] at h9 ⊢
      by_cases hb : 4 ^ b ≤ xs.length + 1
      · have := hwb b hb
        have z1 : 4 ^ b - (xs.length + 1) = 0 := by omega
        rw [z1] at h9
        simp only [Nat.mul_zero] at h9
        omega
      · have z1 : 4 ^ b - xs.length = (4 ^ b - (xs.length + 1)) + 1 := by omega
        rw [z1, Nat.mul_succ]
        omega

/-- The place found for a new element, or the element that stands against it. -/
theorem point_lands (sw : StrictWeak lt) {key : Id → K} {h : Heap} {xs : List Id} {k : K} {q : Id} (hr : Rep h hd xs) (ho : OrderedBy lt u key xs)
    (hn : xs.length + 3 ≤ n) (hq : q ∈ xs ++ [hd]) :
    ∃ p w, pointS key lt u n h hd k (some q) = some (p, w) ∧ w ≤ 6 * lg xs.length ∧
      ((∃ side pos a b, p = .accept side pos ∧ xs = a ++ b ∧ PointAt h hd side pos a b ∧ FitsU lt u key k a b) ∨
       (∃ z ∈ xs, p = .reject z ∧ equivOf lt (key z) k = true)) := by
  have hh : ∀ r, some q = some r → r ∈ xs ++ [hd] := fun r e => by cases e; exact hq
  obtain ⟨p, w, e, hw, h⟩ := pointS_spec sw (k := k) hr ho hn hh
  refine ⟨p, w, e, hw, ?_⟩
  rcases h with h | ⟨z, rfl, hz⟩
  · exact .inl h
  · right
    refine ⟨z, hz, rfl, ?_⟩
    have e' := congrArg (Option.map (·.1)) e
    rw [pointS_fst] at e'
    obtain ⟨b, a, rfl, rfl⟩ := split_hint hq
    cases u with
    | true =>
      rcases hintedPointU_spec sw hr (ho.sorted sw) hn k with ⟨_, _, _, _, e1, -⟩ | ⟨y, -, e1, e2⟩
      · have : hintedPointU key lt n h hd k (hdOr hd a) = some (.reject z) := e'
        rw [e1] at this; cases this
      · have : hintedPointU key lt n h hd k (hdOr hd a) = some (.reject z) := e'
        rw [e1] at this; cases this
        exact e2
    | false =>
      obtain ⟨_, _, _, _, e1, -⟩ := hintedPointN_spec sw hr (ho.sorted sw) hn k
      have : hintedPointN key lt n h hd k (hdOr hd a) = some (.reject z) := e'
      rw [e1] at this; cases this

/-- Any range. -/
theorem fill_any (sw : StrictWeak lt) : ∀ (l : List (Id × K)) {s : Idx K} {xs : List Id} {P : Nat} {q : Id}, RepP s.h hd xs P → OrderedBy lt u s.key xs → s.count = xs.length →
    (hd :: (xs ++ l.map Prod.fst)).Nodup → (∀ p ∈ l, p.1 ≠ 0) → q ∈ xs ++ [hd] →
    ∃ s' r P' ys q', fill lt u hd s q l = some (s', q', r) ∧ RepP s'.h hd ys P' ∧ OrderedBy lt u s'.key ys ∧ s'.count = ys.length ∧
      (∀ y ∈ ys, y ∈ xs ++ l.map Prod.fst) ∧ (∀ y ∈ xs, y ∈ ys) ∧ (∀ z ∈ xs, s'.key z = s.key z) ∧ (∀ p ∈ l, p.1 ∈ ys → s'.key p.1 = p.2) ∧
      (∀ p ∈ l, p.1 ∉ ys → u = true ∧ ∃ z ∈ ys, equivOf lt (s'.key z) p.2 = true) ∧
      (l = [] → q' = q) ∧ (∀ p, l.getLast? = some p → ∃ a z b, ys = a ++ z :: b ∧ q' = hdOr hd b ∧ equivOf lt (s'.key z) p.2 = true) ∧
      r.fix + P' ≤ P + 5 * l.length ∧ r.walk ≤ l.length * (8 * Nat.log2 (xs.length + l.length + 1)) := by
  intro l
  induction l with
  | nil =>
    intro s xs P q hr ho hc _ _ _
    exact ⟨s, ⟨0, 0⟩, P, xs, q, rfl, hr, ho, hc, by simp, by simp, by simp, by simp, by simp, by simp, by simp, by simp, by simp⟩
  | cons q0 l ih =>
    obtain ⟨x, k⟩ := q0
    intro s xs P q hr ho hc nd nz hq
    have hn : xs.length + 4 ≤ s.count + 4 := by omega
    simp only [List.map_cons, List.length_cons] at nd ⊢
    have hx : x ∉ hd :: xs := by
      intro h
      rcases List.mem_cons.1 h with rfl | h
      · simp at nd
      · simp [List.nodup_append] at nd
        exact absurd rfl (nd.2.2.2 x h).1
    have hx0 : x ≠ 0 := nz (x, k) (by simp)
    have ne : ∀ z ∈ xs, z ≠ x := fun z hz e => hx (e ▸ List.mem_cons_of_mem _ hz)
    have hxl : ∀ p ∈ l, p.1 ≠ x := by
      rintro p hp rfl
      simp [List.nodup_append] at nd
      exact nd.2.2.1.1 p.2 hp
    have refl : equivOf lt k k = true := by simp [equivOf, sw.irrefl]
    have ho' : OrderedBy lt u (upd s.key x k) xs := ho.congr (fun z hz => upd_other _ _ (ne z hz))
    obtain ⟨p, w, e, hw, hp⟩ := point_lands sw (k := k) hr.rep ho' (n := s.count + 4) (by omega) hq
    have L1 : Nat.log2 (xs.length + 1) ≤ Nat.log2 (xs.length + (l.length + 1) + 1) := by
      rw [Nat.le_log2 (by omega)]
      exact Nat.le_trans (Nat.log2_self_le (by omega)) (by omega)
    have L2 : Nat.log2 (xs.length + l.length + 1) ≤ Nat.log2 (xs.length + (l.length + 1) + 1) := by
      rw [Nat.le_log2 (by omega)]
      exact Nat.le_trans (Nat.log2_self_le (by omega)) (by omega)
    have L3 : Nat.log2 (xs.length + 1 + 1) ≤ Nat.log2 (xs.length + (l.length + 1) + 1) := by
      rw [Nat.le_log2 (by omega)]
      exact Nat.le_trans (Nat.log2_self_le (by omega)) (by omega)
    rcases hp with ⟨side, pos, a, b, rfl, rfl, hp, hf⟩ | ⟨z, hz, rfl, hz2⟩
    · obtain ⟨h1, f, P1, e1, r1, c1, -⟩ := linkP_at (N := s.count + 4) hr hp hx hx0 (by omega)
      have ho1 := ho'.insert (x := x) (fun hm => hx (List.mem_cons_of_mem _ hm)) hf
      rw [upd_idem] at ho1
      obtain ⟨w2, e2, hw2⟩ := incrementS_le (u := a) (v := b) (N := s.count + 1 + 4) r1.rep (by simp at hn ⊢; omega)
      have pm : (a ++ x :: b ++ l.map Prod.fst).Perm (a ++ b ++ x :: l.map Prod.fst) := by
        have : (a ++ x :: b).Perm (x :: (a ++ b)) := List.perm_middle
        refine (this.append_right _).trans ?_
        simpa using (List.perm_middle (l₁ := a ++ b) (l₂ := l.map Prod.fst) (a := x)).symm
      obtain ⟨s', r, P', ys, q', g1, g2, g3, g4, g5, g6, g7, g8, g9, g10, g11, g12, g13⟩ := ih (s := ⟨upd s.key x k, h1, s.count + 1⟩) (xs := a ++ x :: b) (P := P1) (q := hdOr hd b) r1 ho1
        (by simp [hc]; omega) (((pm.cons hd).nodup_iff).2 nd) (fun p hp => nz p (by simp [hp]))
        (by cases b with | nil => simp [hdOr] | cons c b => simp [hdOr])
      have kx : s'.key x = k := (g7 x (by simp)).trans (upd_same _ _ _)
      refine ⟨s', ((⟨w, f⟩ : Rounds).add ⟨w2, 0⟩).add r, P', ys, q', ?_, g2, g3, g4, fun y hy => pm.mem_iff.1 (g5 y hy), fun y hy => g6 y (by
        rcases List.mem_append.1 hy with h | h <;> simp [h]), fun z hz => ?_, fun p hp hy => ?_, fun p hp hy => ?_, by simp, fun p hp => ?_, ?_, ?_⟩
      · simp only [fill, act, e, e1, Point.landed]
        rw [e2]
        show Option.map _ (fill lt u hd _ (hdOr hd b) l) = _
        rw [g1]
        rfl
      · rw [g7 z (by rcases List.mem_append.1 hz with h | h <;> simp [h])]; exact upd_other _ _ (ne z hz)
      · rcases List.mem_cons.1 hp with rfl | hp
        · exact kx
        · exact g8 p hp hy
      · rcases List.mem_cons.1 hp with rfl | hp
        · exact absurd (g6 x (by simp)) hy
        · exact g9 p hp hy
      · rcases l with _ | ⟨p0, l⟩
        · simp at hp
          subst hp
          obtain rfl := g10 rfl
          have : ys = a ++ x :: b := by
            have := g1
            simp only [fill, Option.some.injEq, Prod.mk.injEq] at this
            obtain ⟨rfl, -, -⟩ := this
            exact rep_unique g2.rep r1.rep
          exact ⟨a, x, b, this, rfl, by rw [kx]; exact refl⟩
        · exact g11 p (by simpa [List.getLast?_cons_cons] using hp)
      · simp only [Rounds.add] at *; omega
      · simp only [Rounds.add, List.length_append, List.length_cons, lg] at *
        rw [Nat.succ_mul]
        have e5 : a.length + (b.length + 1) + l.length + 1 = a.length + b.length + (l.length + 1) + 1 := by omega
        have e6 : a.length + (b.length + 1) + 1 = a.length + b.length + 1 + 1 := by omega
        rw [e5] at g13
        rw [e6] at hw2
        omega
    · obtain ⟨a, b, rfl⟩ := List.append_of_mem hz
      obtain ⟨w2, e2, hw2⟩ := incrementS_le (u := a) (v := b) (N := s.count + 4) hr.rep (by simp at hn ⊢; omega)
      have hut : u = true := by
        cases u with
        | true => rfl
        | false =>
          exfalso
          obtain ⟨c, d, e3, rfl⟩ := split_hint hq
          have e' := congrArg (Option.map (·.1)) e
          rw [pointS_fst] at e'
          have hrr := hr.rep
          rw [e3] at hrr ho' hn
          obtain ⟨_, _, _, _, e4, -⟩ := hintedPointN_spec sw hrr (ho'.sorted sw) (n := s.count + 4) (by omega) k
          have : hintedPointN (upd s.key x k) lt (s.count + 4) s.h hd k (hdOr hd d) = some (.reject z) := e'
          rw [e4] at this; cases this
      rw [upd_other _ _ (ne z hz)] at hz2
      obtain ⟨s', r, P', ys, q', g1, g2, g3, g4, g5, g6, g7, g8, g9, g10, g11, g12, g13⟩ := ih (s := s) (xs := a ++ z :: b) (P := P) (q := hdOr hd b) hr ho
        hc (nd.sublist (by simp)) (fun p hp => nz p (by simp [hp]))
        (by cases b with | nil => simp [hdOr] | cons c b => simp [hdOr])
      refine ⟨s', ((⟨w, 0⟩ : Rounds).add ⟨w2, 0⟩).add r, P', ys, q', ?_, g2, g3, g4, fun y hy => ?_, g6, g7, fun p hp hy => ?_, fun p hp hy => ?_, by simp, fun p hp => ?_, ?_, ?_⟩
      · simp only [fill, act, e, Point.landed]
        rw [e2]
        show Option.map _ (fill lt u hd _ (hdOr hd b) l) = _
        rw [g1]
        rfl
      · rcases List.mem_append.1 (g5 y hy) with h | h
        · exact List.mem_append_left _ h
        · exact List.mem_append_right _ (List.mem_cons_of_mem _ h)
      · rcases List.mem_cons.1 hp with rfl | hp
        · exfalso
          rcases List.mem_append.1 (g5 x hy) with h | h
          · exact hx (List.mem_cons_of_mem _ h)
          · obtain ⟨p, hp, e⟩ := List.mem_map.1 h
            exact hxl p hp e
        · exact g8 p hp hy
      · rcases List.mem_cons.1 hp with rfl | hp
        · exact ⟨hut, z, g6 z hz, by rw [g7 z hz]; exact hz2⟩
        · exact g9 p hp hy
      · rcases l with _ | ⟨p0, l⟩
        · simp at hp
          subst hp
          obtain rfl := g10 rfl
          have : ys = a ++ z :: b := by
            have := g1
            simp only [fill, Option.some.injEq, Prod.mk.injEq] at this
            obtain ⟨rfl, -, -⟩ := this
            exact rep_unique g2.rep hr.rep
          exact ⟨a, z, b, this, rfl, by rw [g7 z hz]; exact hz2⟩
        · exact g11 p (by simpa [List.getLast?_cons_cons] using hp)
      · simp only [Rounds.add] at *; omega
      · have g14 := Nat.mul_le_mul_left l.length (Nat.mul_le_mul_left 8 L2)
        simp only [Rounds.add, lg] at *
        rw [Nat.succ_mul]
        omega

end MI.Ord
