import Verif.Hash.Lookup
set_option linter.unusedSimpArgs false
/-! `in_place`: deciding if a modified element can stay where it is. -/
namespace MI.Hash
open MI

section
variable {h : Heap} {a : Arr} {hd : Id} {T : Tab}

/-- `in_place` of unique indices. -/
theorem inPlaceU_spec (r : Rep h a hd T) (oc : OfCat .uniq T) (p : Id → Bool) (x : Id) {i : Nat} :
    ∀ (v u : List Id) (n : Nat) (f : Bool), gnodes (T.B i) = u ++ v → v.length ≤ n →
      inPlaceU p h x n (v.headD 0) f = .ok ((f || decide (x ∈ v)) && v.all (fun y => y == x || !p y))
  | [], u, n, f, _, _ => by cases n <;> simp [inPlaceU]
  | y :: v, u, 0, f, _, hn => by simp at hn
  | y :: v, u, n + 1, f, e, hn => by
    have al : U.afterLocal h y = v.headD 0 := r.afterLocal oc e
    have y0 : y ≠ 0 := by
      rintro rfl
      exact r.nz (List.mem_cons_of_mem _ (r.mem_nodes.2 ⟨i, by rw [e]; simp⟩))
    have ih := fun f => inPlaceU_spec r oc p x v (u ++ [y]) n f (by rw [e]; simp) (by simpa using hn)
    simp only [List.headD_cons, inPlaceU, if_neg y0, al, ih]
    by_cases k : y = x
    · subst k
      simp
    · have k' : x ≠ y := Ne.symm k
      by_cases hp : p y = true
      · simp [k, hp]
      · have hp : p y = false := by simpa using hp
        simp [k, k', hp]

/-- What `in_place` of non-unique indices computes, on the groups of the bucket. -/
def ipSem (p : Id → Bool) (x : Id) : List Grp → Bool → Nat → Bool
  | [], found, _ => found
  | .one y :: R, found, rs =>
    if y = x then (if rs == 1 then true else ipSem p x R true 1)
    else if p y then
      if rs == 0 && found then false
      else if rs == 1 && !found then false
      else if rs == 2 then false
      else ipSem p x R found (rs + 1)
    else if rs == 1 && !found then false
    else if rs == 2 then found
    else ipSem p x R found 0
  | .many f mid l :: R, found, rs =>
    if f = x then p (mid.headD l)
    else if p f then (if found then false else decide (x ∈ f :: (mid ++ [l])))
    else if rs == 1 && !found then false
    else if rs == 2 then found
    else ipSem p x R found 0

theorem N.firstOfGroup_loc {p f' : Id} {ob ob' : Option Id} {g : Grp} (lc : Loc h p ob g ob' f') (so : g.Solid) :
    (∀ y, g = .one y → N.isFirstOfGroup h y = false) ∧
    (∀ f mid l, g = .many f mid l → N.isFirstOfGroup h f = true ∧ h.next f = mid.headD l ∧ h.prior (h.next f) = l) := by
  obtain ⟨-, inn, ⟨k1, k2, k3⟩, nd, nz, f0, pg, fg, -, ob2, -, -, -, -⟩ := lc
  constructor
  · rintro y rfl
    simp only [Grp.first_one, Grp.last_one, Grp.toList_one, List.mem_singleton] at *
    cases ob' with
    | none =>
      simp only [Option.getD_none] at k2
      simp [N.isFirstOfGroup, k2, k1]
    | some b =>
      simp only [Option.getD_some] at k2
      have k3 := k3 b rfl
      have b2 := (ob2 b rfl).1
      simp [N.isFirstOfGroup, k2, k3, k1, b2]
  · rintro f mid l rfl
    cases mid with
    | nil => exact absurd so id
    | cons s r =>
      obtain ⟨i1, i2, i3, i4⟩ := inn
      obtain ⟨i4, i5⟩ := i4 (by simp)
      simp only [List.headD_cons] at i1 i4
      obtain ⟨w, hw⟩ : ∃ w, (s :: r).getLastD f = w := ⟨_, rfl⟩
      rw [hw] at i2 i5
      have lx : l ≠ f := by rintro rfl; simp at nd
      refine ⟨?_, by simpa using i1, by rw [i1, i4]⟩
      simp [N.isFirstOfGroup, i1, i4, i2, i5, lx]

/-- The inner loop. -/
theorem inPlaceScan_spec (r : Rep h a hd T) (oc : OfCat .multi T) (x : Id) {i : Nat} {w : List Id} :
    ∀ (v u : List Id) (y : Id) (n : Nat), gnodes (T.B i) = u ++ y :: v ++ w → v.length < n →
      inPlaceScan h x (w.headD 0) n y = .ok (decide (x ∈ y :: v))
  | v, u, y, 0, _, hn => by simp at hn
  | [], u, y, n + 1, e, _ => by
    have al : N.afterLocal h y = w.headD 0 := r.afterLocal oc (c := .multi) (u := u) (v := w) (by rw [e]; simp)
    rw [inPlaceScan, al]
    by_cases k : y = x
    · simp [k]
    · have k' : x ≠ y := Ne.symm k
      simp [k, k']
  | z :: v, u, y, n + 1, e, hn => by
    have al : N.afterLocal h y = z := r.afterLocal oc (c := .multi) (u := u) (v := z :: v ++ w) (by rw [e]; simp)
    have nd := r.bucket_nodup i
    have zw : z ≠ w.headD 0 := by
      cases w with
      | nil =>
        rintro k
        simp only [List.headD_nil] at k
        exact r.nz (List.mem_cons_of_mem _ (r.mem_nodes.2 ⟨i, by rw [e, k]; simp⟩))
      | cons w0 w =>
        rintro k
        simp only [List.headD_cons] at k
        subst k
        rw [e] at nd
        have := (List.nodup_append.1 nd).2.2 z (by simp) z (by simp)
        exact this rfl
    rw [inPlaceScan, al]
    by_cases k : y = x
    · simp [k]
    · have k' : x ≠ y := Ne.symm k
      simp only [if_neg k, if_neg zw]
      rw [inPlaceScan_spec r oc x v (u ++ [y]) z n (by rw [e]; simp) (by simpa using hn)]
      simp [k']

theorem inPlaceN_spec (r : Rep h a hd T) (oc : OfCat .multi T) (so : ∀ i, ∀ g ∈ T.B i, g.Solid) (p : Id → Bool) (x : Id) {i : Nat} :
    ∀ (R G : List Grp) (n : Nat) (f : Bool) (rs : Nat), T.B i = G ++ R → (gnodes R).length ≤ n →
      inPlaceN p h x n ((gnodes R).headD 0) f rs = .ok (ipSem p x R f rs)
  | [], G, n, f, rs, _, _ => by cases n <;> simp [inPlaceN, ipSem]
  | g :: R, G, 0, f, rs, hB, hn => by
    have := List.length_pos_iff.2 g.toList_ne
    simp only [gnodes_cons, List.length_append] at hn
    omega
  | g :: R, G, n + 1, f, rs, hB, hn => by
    obtain ⟨p', ob, ob', f', lc, -⟩ := r.loc hB
    obtain ⟨l1, l2⟩ := N.firstOfGroup_loc lc (so i g (by rw [hB]; simp))
    have len := List.length_pos_iff.2 g.toList_ne
    simp only [gnodes_cons, List.length_append] at hn
    have ih := fun f rs => inPlaceN_spec r oc so p x R (G ++ [g]) n f rs (by rw [hB]; simp) (by omega)
    have hg : (gnodes (g :: R)).headD 0 = g.first := by rw [gnodes_cons, g.toList_eq_first]; simp
    have g0 : g.first ≠ 0 := by
      intro k
      apply r.nz
      rw [← k]
      right
      exact r.mem_nodes.2 ⟨i, by rw [hB]; simp [g.first_mem]⟩
    rw [hg, inPlaceN, if_neg g0]
    cases g with
    | one y =>
      have al : N.afterLocal h y = (gnodes R).headD 0 :=
        r.afterLocal oc (c := .multi) (u := gnodes G) (v := gnodes R) (by rw [hB]; simp)
      simp only [Grp.first_one, l1 y rfl, al, ih, ipSem, Bool.false_eq_true, if_false]
      repeat (first | rfl | split)
    | many y mid l =>
      obtain ⟨a1, a2, a3⟩ := l2 y mid l rfl
      have al : N.afterLocal h l = (gnodes R).headD 0 :=
        r.afterLocal oc (c := .multi) (u := gnodes G ++ y :: mid) (v := gnodes R) (by rw [hB]; simp)
      have sc := inPlaceScan_spec r oc x (i := i) (w := gnodes R) (mid ++ [l]) (gnodes G) y (n + 1) (by rw [hB]; simp)
        (by simp only [Grp.toList_many, List.length_cons, List.length_append, List.length_nil] at hn ⊢; omega)
      rw [a2] at a3
      simp only [Grp.first_many, a1, a2, a3, al, ih, ipSem, sc, if_true]
      by_cases k1 : y = x
      · simp [k1]
      · simp only [if_neg k1]
        repeat (first | rfl | split)

/-! ## On lists of groups -/

theorem gnodes_first {R : List Grp} {g : Grp} (hg : g ∈ R) : g.first ∈ gnodes R := mem_gnodes.2 ⟨g, hg, g.first_mem⟩

/-- After `x` was found and some other elements were passed. -/
theorem ipSem_tail (p : Id → Bool) (x : Id) : ∀ R : List Grp, x ∉ gnodes R → ipSem p x R true 0 = R.all (fun g => !p g.first)
  | [], _ => rfl
  | .one y :: R, hx => by
    simp only [gnodes_cons, Grp.toList_one, List.mem_append, List.mem_singleton, not_or] at hx
    have ih := ipSem_tail p x R hx.2
    by_cases k : p y = true
    · simp [ipSem, Ne.symm hx.1, k]
    · simp [ipSem, Ne.symm hx.1, k, ih]
  | .many f mid l :: R, hx => by
    simp only [gnodes_cons, Grp.toList_many, List.mem_append, List.mem_cons, not_or] at hx
    have ih := ipSem_tail p x R hx.2
    by_cases k : p f = true
    · simp [ipSem, Ne.symm hx.1.1, k]
    · simp [ipSem, Ne.symm hx.1.1, k, ih]

/-- What the result depends on just after `x` was found. -/
def ipAfter (p : Id → Bool) : List Grp → Bool
  | [] => true
  | .one y :: R => if p y then R.head?.all (fun g => !p g.first) else R.all (fun g => !p g.first)
  | .many f mid l :: R => (Grp.many f mid l :: R).all (fun g => !p g.first)

/-- Just after `x` was found. -/
theorem ipSem_after (p : Id → Bool) (x : Id) (R : List Grp) (hx : x ∉ gnodes R) : ipSem p x R true 1 = ipAfter p R := by
  cases R with
  | nil => rfl
  | cons g R =>
    cases g with
    | one y =>
      simp only [gnodes_cons, Grp.toList_one, List.mem_append, List.mem_singleton, not_or] at hx
      by_cases k : p y = true
      · cases R with
        | nil => simp [ipSem, ipAfter, Ne.symm hx.1, k]
        | cons g' R' =>
          cases g' with
          | one z =>
            simp only [gnodes_cons, Grp.toList_one, List.mem_append, List.mem_singleton, not_or] at hx
            by_cases k' : p z = true
            · simp [ipSem, ipAfter, Ne.symm hx.1, k, k', Ne.symm hx.2.1]
            · simp [ipSem, ipAfter, Ne.symm hx.1, k, k', Ne.symm hx.2.1]
          | many f mid l =>
            simp only [gnodes_cons, Grp.toList_many, List.mem_append, List.mem_cons, not_or] at hx
            by_cases k' : p f = true
            · simp [ipSem, ipAfter, Ne.symm hx.1, k, k', Ne.symm hx.2.1.1]
            · simp [ipSem, ipAfter, Ne.symm hx.1, k, k', Ne.symm hx.2.1.1]
      · have := ipSem_tail p x R hx.2
        simp [ipSem, ipAfter, Ne.symm hx.1, k, this]
    | many f mid l =>
      simp only [gnodes_cons, Grp.toList_many, List.mem_append, List.mem_cons, not_or] at hx
      have := ipSem_tail p x R hx.2
      by_cases k : p f = true
      · simp [ipSem, ipAfter, Ne.symm hx.1.1, k]
      · simp [ipSem, ipAfter, Ne.symm hx.1.1, k, this]

/-- Before `x`, passing elements that are not equal to the key. -/
theorem ipSem_skip (p : Id → Bool) (x : Id) : ∀ (R R2 : List Grp), (∀ g ∈ R, g.first ≠ x ∧ p g.first = false) →
    ipSem p x (R ++ R2) false 0 = ipSem p x R2 false 0
  | [], R2, _ => rfl
  | .one y :: R, R2, hx => by
    have h1 := hx (.one y) (by simp)
    have ih := ipSem_skip p x R R2 (fun g hg => hx g (by simp [hg]))
    simp only [Grp.first_one] at h1
    simp [ipSem, h1.1, h1.2, ih]
  | .many f mid l :: R, R2, hx => by
    have h1 := hx (.many f mid l) (by simp)
    have ih := ipSem_skip p x R R2 (fun g hg => hx g (by simp [hg]))
    simp only [Grp.first_many] at h1
    simp [ipSem, h1.1, h1.2, ih]

/-- `x` is a group of its own (in the sense of the links): it is in place if no other element of the bucket has its key, or if it is
next to the only other one. -/
theorem ipSem_single (p : Id → Bool) (x : Id) {R1 R2 : List Grp} (n1 : x ∉ gnodes R1) (n2 : x ∉ gnodes R2) (h : ipSem p x (R1 ++ .one x :: R2) false 0 = true) :
    (∀ g ∈ R1 ++ R2, p g.first = false) ∨
    (∃ a R1', R1 = R1' ++ [.one a] ∧ p a = true ∧ ∀ g ∈ R1', p g.first = false) ∨
    (∃ a R2', R2 = .one a :: R2' ∧ p a = true ∧ (∀ g ∈ R1, p g.first = false) ∧ ∀ g ∈ R2'.head?, p g.first = false) := by
  by_cases hp : ∀ g ∈ R1, p g.first = false
  · have sk : ∀ g ∈ R1, g.first ≠ x ∧ p g.first = false := fun g hg => ⟨fun k => n1 (k ▸ gnodes_first hg), hp g hg⟩
    rw [ipSem_skip p x R1 _ sk] at h
    have h' : ipSem p x R2 true 1 = true := by simpa [ipSem] using h
    rw [ipSem_after p x R2 n2] at h'
    cases R2 with
    | nil => left; simpa using hp
    | cons g R2 =>
      cases g with
      | one y =>
        simp only [ipAfter] at h'
        by_cases k : p y = true
        · rw [if_pos k] at h'
          right; right
          refine ⟨y, R2, rfl, k, hp, ?_⟩
          intro g hg
          cases R2 with
          | nil => simp at hg
          | cons g' R' =>
            simp only [List.head?_cons, Option.mem_def, Option.some.injEq] at hg
            subst hg
            simpa using h'
        · rw [if_neg k] at h'
          left
          simp only [List.all_eq_true, Bool.not_eq_true'] at h'
          intro g hg
          simp only [List.mem_append, List.mem_cons] at hg
          rcases hg with hg | rfl | hg
          · exact hp g hg
          · simpa using k
          · exact h' g hg
      | many f mid l =>
        left
        simp only [ipAfter, List.all_eq_true, Bool.not_eq_true'] at h'
        intro g hg
        rcases List.mem_append.1 hg with hg | hg
        · exact hp g hg
        · exact h' g hg
  · have : ∃ A g B, R1 = A ++ g :: B ∧ p g.first = true ∧ ∀ q ∈ A, p q.first = false := by
      clear h n1
      induction R1 with
      | nil => simp at hp
      | cons g R ih =>
        by_cases k : p g.first = true
        · exact ⟨[], g, R, rfl, k, by simp⟩
        · have k : p g.first = false := by simpa using k
          have hp' : ¬ ∀ q ∈ R, p q.first = false := by
            intro q
            apply hp
            intro z hz
            rcases List.mem_cons.1 hz with rfl | hz
            · exact k
            · exact q z hz
          obtain ⟨A, g', B, e, h1, h2⟩ := ih hp'
          refine ⟨g :: A, g', B, by rw [e]; rfl, h1, ?_⟩
          intro q hq
          rcases List.mem_cons.1 hq with rfl | hq
          · exact k
          · exact h2 q hq
    obtain ⟨A, g, B, rfl, pg, pA⟩ := this
    simp only [gnodes_append, gnodes_cons, List.mem_append, not_or] at n1
    have sk : ∀ q ∈ A, q.first ≠ x ∧ p q.first = false := fun q hg => ⟨fun k => n1.1 (k ▸ gnodes_first hg), pA q hg⟩
    rw [List.append_assoc, ipSem_skip p x A _ sk] at h
    have gx : g.first ≠ x := fun k => n1.2.1 (k ▸ g.first_mem)
    cases g with
    | many f mid l =>
      simp only [Grp.first_many] at pg gx
      simp only [List.cons_append, ipSem, if_neg gx, if_pos pg] at h
      exact absurd h (by simpa using n1.2.1)
    | one y =>
      simp only [Grp.first_one] at pg gx
      have h : ipSem p x (B ++ .one x :: R2) false 1 = true := by
        simpa [ipSem, gx, pg] using h
      cases B with
      | nil => exact Or.inr (Or.inl ⟨y, A, rfl, pg, pA⟩)
      | cons g' B =>
        exfalso
        have g'x : g'.first ≠ x := fun k => n1.2.2 (k ▸ gnodes_first (by simp))
        cases g' with
        | one z =>
          simp only [Grp.first_one] at g'x
          by_cases k : p z = true <;> simp [ipSem, g'x, k] at h
        | many f mid l =>
          simp only [Grp.first_many] at g'x
          have n3 : x ∉ f :: (mid ++ [l]) := by
            intro m
            apply n1.2.2
            simp only [gnodes_cons, List.mem_append]
            exact Or.inl m
          by_cases k : p f = true
          · simp only [List.cons_append, ipSem, if_neg g'x, if_pos k] at h
            exact absurd h (by simpa using n3)
          · simp [ipSem, g'x, k] at h

/-- `x` is in a group of three or more: it is in place only if another member of the group has its key. -/
theorem ipSem_many (p : Id → Bool) (x : Id) {m : Grp} (xm : x ∈ m.toList) (mm : ∃ f mid l, m = .many f mid l ∧ f ∉ mid ++ [l])  : ∀ (R1 R2 : List Grp) (found : Bool) (rs : Nat), x ∉ gnodes R1 → x ∉ gnodes R2 → found = false →
    ipSem p x (R1 ++ m :: R2) found rs = true → ∃ y ∈ m.toList, y ≠ x ∧ p y = true := by
  obtain ⟨f, mid, l, rfl, nf⟩ := mm
  have tail : ∀ (R2 : List Grp) (rs : Nat), x ∉ gnodes R2 → ipSem p x R2 false rs = false := by
    intro R2
    induction R2 with
    | nil => intro rs _; rfl
    | cons g R ih =>
      intro rs hx
      simp only [gnodes_cons, List.mem_append, not_or] at hx
      have ih := fun rs => ih rs hx.2
      have gx : g.first ≠ x := fun k => hx.1 (k ▸ g.first_mem)
      cases g with
      | one y =>
        simp only [Grp.first_one] at gx
        simp [ipSem, gx, ih]
      | many f' mid' l' =>
        simp only [Grp.first_many] at gx
        have n3 : x ∉ f' :: (mid' ++ [l']) := hx.1
        simp only [ipSem, if_neg gx, ih]
        simp [n3]
  intro R1
  induction R1 with
  | nil =>
    intro R2 found rs _ n2 hf h
    subst hf
    simp only [List.nil_append, ipSem] at h
    by_cases k : f = x
    · rw [if_pos k] at h
      have hm : mid.headD l ∈ mid ++ [l] := by cases mid <;> simp
      refine ⟨mid.headD l, ?_, ?_, h⟩
      · rw [Grp.toList_many]; exact List.mem_cons_of_mem _ hm
      · rintro e
        rw [e, ← k] at hm
        exact nf hm
    · rw [if_neg k] at h
      by_cases pf : p f = true
      · exact ⟨f, by simp, k, pf⟩
      · rw [if_neg pf, tail R2 0 n2] at h
        simp at h
  | cons g R ih =>
    intro R2 found rs n1 n2 hf h
    subst hf
    simp only [gnodes_cons, List.mem_append, not_or] at n1
    have gx : g.first ≠ x := fun k => n1.1 (k ▸ g.first_mem)
    cases g with
    | one y =>
      simp only [Grp.first_one] at gx
      by_cases py : p y = true
      · simp only [List.cons_append, ipSem, if_neg gx, if_pos py] at h
        by_cases q1 : rs = 1
        · simp [q1] at h
        · by_cases q2 : rs = 2
          · simp [q2] at h
          · have h : ipSem p x (R ++ .many f mid l :: R2) false (rs + 1) = true := by simpa [q1, q2] using h
            exact ih R2 false _ n1.2 n2 rfl h
      · simp only [List.cons_append, ipSem, if_neg gx, if_neg py] at h
        by_cases q1 : rs = 1
        · simp [q1] at h
        · by_cases q2 : rs = 2
          · simp [q2] at h
          · have h : ipSem p x (R ++ .many f mid l :: R2) false 0 = true := by simpa [q1, q2] using h
            exact ih R2 false _ n1.2 n2 rfl h
    | many f' mid' l' =>
      simp only [Grp.first_many] at gx
      have n3 : x ∉ f' :: (mid' ++ [l']) := n1.1
      simp only [List.cons_append, ipSem, if_neg gx] at h
      by_cases py : p f' = true
      · rw [if_pos py] at h
        exact absurd h (by simpa using n3)
      · rw [if_neg py] at h
        by_cases q1 : rs = 1
        · simp [q1] at h
        · by_cases q2 : rs = 2
          · simp [q2] at h
          · have h : ipSem p x (R ++ .many f mid l :: R2) false 0 = true := by simpa [q1, q2] using h
            exact ih R2 false _ n1.2 n2 rfl h

/-- If `x` does not occur, the answer is no. -/
theorem ipSem_none (p : Id → Bool) (x : Id) : ∀ (R : List Grp) (rs : Nat), x ∉ gnodes R → ipSem p x R false rs = false
  | [], _, _ => rfl
  | .one y :: R, rs, hx => by
    simp only [gnodes_cons, Grp.toList_one, List.mem_append, List.mem_singleton, not_or] at hx
    simp [ipSem, Ne.symm hx.1, ipSem_none p x R _ hx.2]
  | .many f mid l :: R, rs, hx => by
    simp only [gnodes_cons, Grp.toList_many, List.mem_append, not_or] at hx
    have fx : f ≠ x := fun k => hx.1 (by simp [k])
    simp only [ipSem, if_neg fx, ipSem_none p x R _ hx.2]
    simp [hx.1]

/-- Completeness: `x` is in a proper group. -/
theorem ipSem_complete (p : Id → Bool) (x : Id) {G1 G2 : List Grp} {g : Grp} (xg : x ∈ g.toList) (nd : (gnodes (G1 ++ g :: G2)).Nodup)
    (pg : ∀ y ∈ g.toList, y ≠ x → p y = true) (p1 : ∀ y ∈ gnodes G1, p y = false) (p2 : ∀ y ∈ gnodes G2, p y = false) :
    ipSem p x ((G1 ++ g :: G2).flatMap Grp.parts) false 0 = true := by
  simp only [gnodes_append, gnodes_cons] at nd
  have n1 : x ∉ gnodes G1 := fun k => (List.nodup_append.1 nd).2.2 x k x (by simp [xg]) rfl
  have n2 : x ∉ gnodes G2 := fun k => (List.nodup_append.1 (List.nodup_append.1 nd).2.1).2.2 x xg x k rfl
  have gnd := (List.nodup_append.1 (List.nodup_append.1 nd).2.1).1
  have sk : ∀ q ∈ G1.flatMap Grp.parts, q.first ≠ x ∧ p q.first = false := by
    intro q hq
    have : q.first ∈ gnodes (G1.flatMap Grp.parts) := gnodes_first hq
    rw [gnodes_parts] at this
    exact ⟨fun k => n1 (k ▸ this), p1 _ this⟩
  have sk2 : ∀ q ∈ G2.flatMap Grp.parts, q.first ≠ x ∧ p q.first = false := by
    intro q hq
    have : q.first ∈ gnodes (G2.flatMap Grp.parts) := gnodes_first hq
    rw [gnodes_parts] at this
    exact ⟨fun k => n2 (k ▸ this), p2 _ this⟩
  have n2' : x ∉ gnodes (G2.flatMap Grp.parts) := by rwa [gnodes_parts]
  have all2 : (G2.flatMap Grp.parts).all (fun g => !p g.first) = true := by
    simp only [List.all_eq_true, Bool.not_eq_true']
    exact fun q hq => (sk2 q hq).2
  rw [List.flatMap_append, List.flatMap_cons, ipSem_skip p x _ _ sk]
  have after : ipSem p x (G2.flatMap Grp.parts) true 1 = true := by
    rw [ipSem_after p x _ n2']
    generalize G2.flatMap Grp.parts = Q at all2
    cases Q with
    | nil => rfl
    | cons q Q =>
      cases q with
      | one y =>
        simp only [List.all_cons, Bool.and_eq_true, Bool.not_eq_true', Grp.first_one] at all2
        rw [ipAfter, if_neg (by simp [all2.1])]
        exact all2.2
      | many _ _ _ => exact all2
  cases g with
  | one y =>
    simp only [Grp.toList_one, List.mem_singleton] at xg
    subst xg
    simpa [Grp.parts, ipSem] using after
  | many f mid l =>
    cases mid with
    | nil =>
      simp only [Grp.toList_many, List.nil_append, List.mem_cons, List.not_mem_nil, or_false] at xg pg gnd
      have fl : f ≠ l := by rintro rfl; simp at gnd
      rcases xg with rfl | rfl
      · have pl : p l = true := pg l (by simp) (Ne.symm fl)
        have n3 : x ∉ gnodes (.one l :: G2.flatMap Grp.parts) := by
          simp only [gnodes_cons, Grp.toList_one, List.mem_append, List.mem_singleton, not_or]
          exact ⟨fl, n2'⟩
        have : ipSem p x (.one l :: G2.flatMap Grp.parts) true 1 = true := by
          rw [ipSem_after p x _ n3]
          simp only [ipAfter, pl, if_true]
          generalize G2.flatMap Grp.parts = Q at all2
          cases Q with
          | nil => rfl
          | cons q Q =>
            simp only [List.all_cons, Bool.and_eq_true] at all2
            simpa using all2.1
        simpa [Grp.parts, ipSem] using this
      · have pf : p f = true := pg f (by simp) fl
        simp [Grp.parts, ipSem, fl, pf]
    | cons s r =>
      simp only [Grp.parts, List.singleton_append, ipSem]
      by_cases k : f = x
      · rw [if_pos k]
        subst k
        refine pg _ (by simp) ?_
        rintro rfl
        simp at gnd
      · rw [if_neg k, if_pos (pg f (by simp) k)]
        simpa using xg

end
end MI.Hash
