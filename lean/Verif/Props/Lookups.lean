import Verif.Props.Ord
import Verif.Props.Hash
import Verif.Props.Rnd
import Verif.Props.Cont
import Verif.Rnd.Iter
/-!
# C12, C13, C15, C17–C20, C32 for the indices of containers

The other files state what lookups do in an index that is well formed. Here: in any index of any container of any state that a program may reach, whatever the program
has done before, with exceptions or without, whatever the other indices of the container are. `c.seqs[k]? = some xs` says that a traversal of index `k` of the container
meets the elements `xs`; the fields of the index are those of the layer `c.ls[k]?`.
-/
namespace MI.Cont
open MI

theorem hdOr_eq (d : Id) (l : List Id) : hdOr d l = l.headD d := by cases l <;> rfl

theorem two_log_le (n : Nat) : 2 * Nat.log2 (n + 1) ≤ n + 2 := by
  have h1 : ∀ m : Nat, 2 * m ≤ 2 ^ m + 1 := by
    intro m
    induction m with
    | zero => decide
    | succ m ih =>
      rw [Nat.pow_succ]
      rcases m with _ | m
      · decide
      · have : 2 ≤ 2 ^ (m + 1) := by rw [Nat.pow_succ]; have := Nat.one_le_two_pow (n := m); omega
        omega
  have h2 : 2 ^ Nat.log2 (n + 1) ≤ n + 1 := Nat.log2_self_le (by omega)
  have := h1 (Nat.log2 (n + 1))
  omega

variable {V CK : Type} {w : World V} {c : Container V} {k : Nat} {xs : List Id}

section Ordered
variable {u : Bool} {lt : V → V → Bool} {h : Ord.Heap}

theorem ord_layer (r : Reach w) (hc : c ∈ w.cs) (hL : c.ls[k]? = some (.ord u lt h)) (hx : c.seqs[k]? = some xs) :
    Ord.Rep h c.hd xs ∧ Ord.SortedBy w.m.val lt xs ∧ StrictWeak lt ∧ 2 * Nat.log2 (xs.length + 1) + 2 ≤ c.budget ∧ xs.length + 3 ≤ c.budget ∧ c.count = xs.length := by
  have s := r.sound hc
  obtain ⟨ys, h1, h2, h3⟩ := fit_get s.fit hL
  obtain rfl := Option.some.inj (hx.symm.trans h1)
  have sw : StrictWeak lt := okAll_get s.ok hL
  have hb : xs.length + 3 ≤ c.budget := by rw [h3.length_eq]; exact s.budget
  have hcount : c.count = xs.length := by rw [h3.length_eq]; exact s.count
  have := two_log_le xs.length
  refine ⟨h2.1, ?_, sw, by unfold Container.budget; omega, hb, hcount⟩
  have g := h2.2
  cases u with
  | true => exact List.Pairwise.imp (fun q => sw.asymm q) g
  | false => exact g

/-- C12: in every container of a reachable state, lookups of an ordered index are exact for every compatible key: `find` returns the first element with an equivalent key or
`end()`, `contains` tells if there is one, `lower_bound` and `upper_bound` return the first element not less and the first one greater, `equal_range` returns both, `count` counts. -/
theorem C12_container (r : Reach w) (hc : c ∈ w.cs) (hL : c.ls[k]? = some (.ord u lt h)) (hx : c.seqs[k]? = some xs)
    {ltk : V → CK → Bool} {gtk : CK → V → Bool} (ce : CompatExt lt ltk gtk) (q : CK) :
    Ord.find w.m.val ltk gtk c.budget h c.hd q = some ((xs.find? (fun a => equivTo ltk gtk q (w.m.val a))).getD c.hd) ∧
    Ord.contains w.m.val ltk gtk c.budget h c.hd q = some (xs.any (fun a => equivTo ltk gtk q (w.m.val a))) ∧
    Ord.lowerBound w.m.val ltk c.budget h c.hd q = some ((xs.find? (fun a => !ltk (w.m.val a) q)).getD c.hd) ∧
    Ord.upperBound w.m.val gtk c.budget h c.hd q = some ((xs.find? (fun a => gtk q (w.m.val a))).getD c.hd) ∧
    Ord.count w.m.val ltk gtk c.budget h c.hd q = some (xs.countP (fun a => equivTo ltk gtk q (w.m.val a))) ∧
    ∃ p m s, xs = p ++ m ++ s ∧ Ord.equalRange w.m.val ltk gtk c.budget h c.hd q = some ((m ++ s).headD c.hd, s.headD c.hd) ∧
      m = xs.filter (fun a => equivTo ltk gtk q (w.m.val a)) ∧ (∀ a ∈ p, ltk (w.m.val a) q = true) ∧ ∀ a ∈ s, gtk q (w.m.val a) = true := by
  obtain ⟨hr, hs, -, b1, b2, -⟩ := ord_layer r hc hL hx
  obtain ⟨p, m, s, e1, e2, e3, e4, e5⟩ := Ord.C12_equal_range hr hs ce b1 q
  exact ⟨Ord.C12_find hr hs ce b1 q, Ord.C12_contains hr hs ce b1 q, Ord.C12_lower_bound hr hs ce b1 q, Ord.C12_upper_bound hr hs ce b1 q,
    Ord.C12_count hr hs ce b2 q, p, m, s, e1, by rw [e2, hdOr_eq, hdOr_eq], e3, e4, e5⟩

/-- C12: an element is found by its own key: `find` returns an element with an equivalent key, which is the element itself if the index is unique. -/
theorem C12_container_self (r : Reach w) (hc : c ∈ w.cs) (hL : c.ls[k]? = some (.ord u lt h)) {x : Id} (hx : x ∈ c.elems) :
    ∃ y, y ∈ c.elems ∧ Ord.find w.m.val lt lt c.budget h c.hd (w.m.val x) = some y ∧ equivOf lt (w.m.val x) (w.m.val y) = true ∧ (u = true → y = x) := by
  have s := r.sound hc
  obtain ⟨xs, h1, h2, h3⟩ := fit_get s.fit hL
  obtain ⟨hr, hs, sw, b1, -, -⟩ := ord_layer r hc hL h1
  have hx' : x ∈ xs := h3.mem_iff.2 hx
  have e := Ord.C12_find hr hs sw.compat b1 (w.m.val x)
  cases hf : xs.find? (fun a => equivTo lt lt (w.m.val x) (w.m.val a)) with
  | none =>
    have := List.find?_eq_none.1 hf x hx'
    simp [equivTo, sw.irrefl] at this
  | some y =>
    rw [hf] at e
    have hy := List.mem_of_find?_eq_some hf
    have q := List.find?_some hf
    simp only [equivTo, Bool.and_eq_true, Bool.not_eq_true'] at q
    refine ⟨y, h3.mem_iff.1 hy, e, by simp [equivOf, q.1, q.2], fun hu => ?_⟩
    subst hu
    have g : xs.Pairwise (fun a b => lt (w.m.val a) (w.m.val b) = true) := h2.2
    by_cases hxy : y = x
    · exact hxy
    · exfalso
      obtain ⟨a, b, rfl⟩ := List.append_of_mem hx'
      obtain ⟨-, g2, g3⟩ := List.pairwise_append.1 g
      rcases List.mem_append.1 hy with hy | hy
      · have := g3 y hy x (by simp)
        rw [q.1] at this; cases this
      · rcases List.mem_cons.1 hy with rfl | hy
        · exact hxy rfl
        · have := (List.pairwise_cons.1 g2).1 y hy
          rw [q.2] at this; cases this

/-- C13: `range(lower,upper)` delimits exactly the elements that meet both bounds (`none`: unbounded). Its first position is that of the first element which meets the lower
bound, or `end()`, also if no element meets both. -/
theorem C13_container (r : Reach w) (hc : c ∈ w.cs) (hL : c.ls[k]? = some (.ord u lt h)) (hx : c.seqs[k]? = some xs)
    (lower upper : Option (V → Bool)) (hlo : ∀ p, lower = some p → LowerBounder lt p) (hup : ∀ p, upper = some p → UpperBounder lt p) :
    ∃ p m s, xs = p ++ m ++ s ∧ Ord.range w.m.val lower upper c.budget h c.hd = some ((m ++ s).headD c.hd, s.headD c.hd) ∧
      m = xs.filter (fun a => holds lower (w.m.val a) && holds upper (w.m.val a)) ∧
      (∀ a ∈ p, holds lower (w.m.val a) = false) ∧ ∀ a ∈ m ++ s, holds lower (w.m.val a) = true := by
  obtain ⟨hr, hs, -, b1, -, -⟩ := ord_layer r hc hL hx
  obtain ⟨p, m, s, e1, e2, e3, e4, e5⟩ := Ord.C13_range hr hs b1 lower upper hlo hup
  exact ⟨p, m, s, e1, by rw [e2, hdOr_eq, hdOr_eq], e3, e4, e5⟩

/-- C15: the tree of an ordered index is a red-black tree of logarithmic height. -/
theorem C15_container (r : Reach w) (hc : c ∈ w.cs) (hL : c.ls[k]? = some (.ord u lt h)) :
    ∃ t, Ord.RepT h c.hd t ∧ c.seqs[k]? = some t.ids ∧ Ord.RBTree t ∧ t.height ≤ 2 * Nat.log2 (c.count + 1) := by
  obtain ⟨xs, h1, -, -⟩ := fit_get (r.sound hc).fit hL
  obtain ⟨hr, -, -, -, -, e⟩ := ord_layer r hc hL h1
  obtain ⟨t, t1, rfl, t2, t3⟩ := Ord.C15_height hr
  exact ⟨t, t1, h1, t2, by rwa [e]⟩

/-- C17: `++it` and `--it` go to the next and to the previous element, `end()` included. -/
theorem C17_container {x : Id} {p s : List Id} (r : Reach w) (hc : c ∈ w.cs) (hL : c.ls[k]? = some (.ord u lt h)) (hx : c.seqs[k]? = some (p ++ x :: s)) :
    Ord.increment h c.budget x = some (s.headD c.hd) ∧ Ord.decrement h c.budget (s.headD c.hd) = some x := by
  obtain ⟨hr, -, -, -, b2, -⟩ := ord_layer r hc hL hx
  rw [← hdOr_eq]
  exact ⟨Ord.C17_increment hr b2, Ord.C17_decrement hr b2⟩

/-- C18: in ranked indices, `nth(i)` is the element number `i`, or `end()`, and `rank(it)` the number of elements before `it`. -/
theorem C18_container (r : Reach w) (hc : c ∈ w.cs) (hL : c.ls[k]? = some (.ord u lt h)) (hx : c.seqs[k]? = some xs) :
    (∀ i, Ord.nth c.budget h c.hd i = some (xs.getD i c.hd)) ∧ (∀ p x s, xs = p ++ x :: s → Ord.rank c.budget h c.hd x = some p.length) ∧
      Ord.rank c.budget h c.hd c.hd = some c.count := by
  obtain ⟨hr, -, -, b1, -, e⟩ := ord_layer r hc hL hx
  refine ⟨Ord.C18_nth hr b1, fun p x s hp => ?_, by rw [e]; exact Ord.C18_rank_end hr⟩
  subst hp
  exact Ord.C18_rank hr b1

/-- C19: lookups by rank count the elements before the places found. -/
theorem C19_container (r : Reach w) (hc : c ∈ w.cs) (hL : c.ls[k]? = some (.ord u lt h)) (hx : c.seqs[k]? = some xs)
    {ltk : V → CK → Bool} {gtk : CK → V → Bool} (ce : CompatExt lt ltk gtk) (q : CK) :
    Ord.findRank w.m.val ltk gtk c.budget h c.hd q = some (xs.findIdx (fun a => equivTo ltk gtk q (w.m.val a))) ∧
    Ord.lowerBoundRank w.m.val ltk c.budget h c.hd q = some (xs.countP (fun a => ltk (w.m.val a) q)) ∧
    Ord.upperBoundRank w.m.val gtk c.budget h c.hd q = some (xs.countP (fun a => !gtk q (w.m.val a))) ∧
    Ord.equalRangeRank w.m.val ltk gtk c.budget h c.hd q = some (xs.countP (fun a => ltk (w.m.val a) q), xs.countP (fun a => !gtk q (w.m.val a))) ∧
    Ord.countRanked w.m.val ltk gtk c.budget h c.hd q = some (xs.countP (fun a => equivTo ltk gtk q (w.m.val a))) := by
  obtain ⟨hr, hs, -, b1, -, -⟩ := ord_layer r hc hL hx
  exact ⟨Ord.C19_find_rank hr hs ce b1 q, Ord.C19_lower_bound_rank hr hs ce b1 q, Ord.C19_upper_bound_rank hr hs ce b1 q,
    Ord.C19_equal_range_rank hr hs ce b1 q, Ord.C19_count hr hs ce b1 q⟩

/-- C19: `range_rank(lower,upper)`: the number of elements that do not meet the lower bound, and that number plus the number of elements in the range. These are the
ranks of the positions `range(lower,upper)` returns, also if the range is empty. -/
theorem C19_range_container (r : Reach w) (hc : c ∈ w.cs) (hL : c.ls[k]? = some (.ord u lt h)) (hx : c.seqs[k]? = some xs)
    (lower upper : Option (V → Bool)) (hlo : ∀ p, lower = some p → LowerBounder lt p) (hup : ∀ p, upper = some p → UpperBounder lt p) :
    Ord.rangeRank w.m.val lower upper c.budget h c.hd c.count =
        some (xs.countP (fun a => !holds lower (w.m.val a)),
          xs.countP (fun a => !holds lower (w.m.val a)) + xs.countP (fun a => holds lower (w.m.val a) && holds upper (w.m.val a))) ∧
      ∃ a b, Ord.range w.m.val lower upper c.budget h c.hd = some (a, b) ∧
        Ord.rank c.budget h c.hd a = some (xs.countP (fun a => !holds lower (w.m.val a))) ∧
        Ord.rank c.budget h c.hd b =
          some (xs.countP (fun a => !holds lower (w.m.val a)) + xs.countP (fun a => holds lower (w.m.val a) && holds upper (w.m.val a))) := by
  obtain ⟨hr, hs, -, b1, -, e⟩ := ord_layer r hc hL hx
  obtain ⟨p, m, s, e1, e2, e3, e4, e5, e6⟩ := Ord.C19_range_rank hr hs b1 lower upper hlo hup
  have c1 : xs.countP (fun a => !holds lower (w.m.val a)) = p.length := by
    rw [e1, List.append_assoc, List.countP_append, List.countP_eq_length.2 (fun a ha => by simp [e5 a ha]),
      List.countP_eq_zero.2 (fun a ha => by simp [e6 a ha])]
    rfl
  have c2 : xs.countP (fun a => holds lower (w.m.val a) && holds upper (w.m.val a)) = m.length := by rw [e2, List.countP_eq_length_filter]
  obtain ⟨-, rk, rke⟩ := C18_container r hc hL hx
  have rkAt : ∀ q t, xs = q ++ t → Ord.rank c.budget h c.hd (t.headD c.hd) = some q.length := by
    intro q t et
    cases t with
    | nil => rw [List.headD_nil, rke, e, et]; simp
    | cons y t => exact rk q y t et
  rw [c1, c2, e]
  refine ⟨e4, _, _, e3, ?_, ?_⟩
  · rw [hdOr_eq]; exact rkAt p (m ++ s) (by simpa using e1)
  · rw [hdOr_eq]; rw [rkAt (p ++ m) s (by simpa using e1)]; simp

end Ordered

section Hashed
variable {cat : Hash.Cat} {eq : V → V → Bool} {hf : V → Nat} {pol : Pol} {ml : Nat} {h : Hash.Heap} {a : Hash.Arr}

theorem hash_layer (r : Reach w) (hc : c ∈ w.cs) (hL : c.ls[k]? = some (.hash cat eq hf pol ml h a)) (hx : c.seqs[k]? = some xs) :
    Hash.Index cat w.m.val eq hf h a c.hd xs ∧ EqHash eq hf ∧ xs.length ≤ c.budget := by
  have s := r.sound hc
  obtain ⟨ys, h1, h2, h3⟩ := fit_get s.fit hL
  obtain rfl := Option.some.inj (hx.symm.trans h1)
  have sw : EqHash eq hf := okAll_get s.ok hL
  have hb : xs.length + 3 ≤ c.budget := by rw [h3.length_eq]; exact s.budget
  exact ⟨h2.2, sw, by omega⟩

/-- C20: in every container of a reachable state, lookups of a hashed index are exact for every compatible key, after any rehashes. -/
theorem C20_container (r : Reach w) (hc : c ∈ w.cs) (hL : c.ls[k]? = some (.hash cat eq hf pol ml h a)) (hx : c.seqs[k]? = some xs)
    {ceq : CK → V → Bool} {chash : CK → Nat} (ce : CompatHash eq hf ceq chash) (q : CK) :
    Hash.find c.budget cat (fun y => ceq q (w.m.val y)) (chash q) h a c.hd = .ok ((xs.find? (fun y => ceq q (w.m.val y))).getD c.hd) ∧
    Hash.count c.budget cat (fun x y => eq (w.m.val x) (w.m.val y)) (fun y => ceq q (w.m.val y)) (chash q) h a = .ok (xs.countP (fun y => ceq q (w.m.val y))) ∧
    ∃ p m s, xs = p ++ m ++ s ∧ m = xs.filter (fun y => ceq q (w.m.val y)) ∧
      Hash.equalRange c.budget cat (fun x y => eq (w.m.val x) (w.m.val y)) (fun y => ceq q (w.m.val y)) (chash q) h a c.hd =
        .ok (if m = [] then (c.hd, c.hd) else (m.headD c.hd, s.headD c.hd)) := by
  obtain ⟨hi, eh, hn⟩ := hash_layer r hc hL hx
  obtain ⟨p, m, s, e1, e2, e3, e4⟩ := Hash.C20_equal_range eh ce hi hn q
  refine ⟨Hash.C20_find eh ce hi hn q, Hash.C20_count eh ce hi hn q, p, m, s, e1, ?_, e4⟩
  rw [e1, List.filter_append, List.filter_append, List.filter_eq_self.2 e2,
    List.filter_eq_nil_iff.2 (fun y hy => by simp [e3 y (List.mem_append_left _ hy)]),
    List.filter_eq_nil_iff.2 (fun y hy => by simp [e3 y (List.mem_append_right _ hy)])]
  simp

/-- C20: an element is found by its own key: `find` returns an element with an equal key, which is the element itself if the index is unique. -/
theorem C20_container_self (r : Reach w) (hc : c ∈ w.cs) (hL : c.ls[k]? = some (.hash cat eq hf pol ml h a)) {x : Id} (hx : x ∈ c.elems) :
    ∃ y, y ∈ c.elems ∧ Hash.find c.budget cat (fun y => eq (w.m.val x) (w.m.val y)) (hf (w.m.val x)) h a c.hd = .ok y ∧ eq (w.m.val x) (w.m.val y) = true ∧
      (cat = .uniq → y = x) := by
  obtain ⟨xs, h1, h2, h3⟩ := fit_get (r.sound hc).fit hL
  obtain ⟨hi, eh, hn⟩ := hash_layer r hc hL h1
  have hx' := h3.mem_iff.2 hx
  obtain ⟨y, hy, e1, e2⟩ := Hash.C20_find_self eh hi hn hx'
  refine ⟨y, h3.mem_iff.1 hy, e1, e2, fun hu => ?_⟩
  subst hu
  have g := Hash.C21_unique eh hi
  by_cases hxy : y = x
  · exact hxy
  · exfalso
    obtain ⟨p, s, rfl⟩ := List.append_of_mem hx'
    obtain ⟨-, g2, g3⟩ := List.pairwise_append.1 g
    rcases List.mem_append.1 hy with hy | hy
    · have := g3 y hy x (by simp)
      rw [eh.symm e2] at this; cases this
    · rcases List.mem_cons.1 hy with rfl | hy
      · exact hxy rfl
      · have := (List.pairwise_cons.1 g2).1 y hy
        rw [e2] at this; cases this

end Hashed

/-- C32: in every container of a reachable state, positions in a random access index are exact: element number `i` is found at `i`, distances and
jumps of iterators are those of the positions. -/
theorem C32_container {s : Rnd.Arr} (r : Reach w) (hc : c ∈ w.cs) (hL : c.ls[k]? = some (.rnd s)) (hx : c.seqs[k]? = some xs) {i j : Nat} (hi : i ≤ xs.length)
    (hj : j ≤ xs.length) :
    Rnd.nth s i = xs.getD i c.hd ∧ Rnd.distance s (Rnd.nth s i) (Rnd.nth s j) = (j : Int) - i ∧ Rnd.advance s (Rnd.nth s i) ((j : Int) - i) = Rnd.nth s j := by
  obtain ⟨ys, h1, h2, -⟩ := fit_get (r.sound hc).fit hL
  obtain rfl := Option.some.inj (hx.symm.trans h1)
  have h2 : Rnd.Rep s c.hd xs := h2
  have e : ∀ n, n ≤ xs.length → Rnd.nth s n = xs.getD n c.hd := by
    intro n hn
    rw [(Rnd.C32_nth h2 n hn).1]
    rcases Nat.lt_or_ge n xs.length with q | q
    · simp [List.getElem_append_left q, List.getD, q]
    · obtain rfl : n = xs.length := by omega
      simp [List.getD]
  refine ⟨e i hi, Rnd.C32_distance h2 i j hi hj, ?_⟩
  rw [Rnd.C32_advance h2 i _ hi (by omega) (by omega), (Rnd.C32_nth h2 j hj).1]
  congr 1
  omega

/-- C32: in every container of a reachable state, all operators of iterators of a random access index agree with the positions: `begin()+i` and `begin()+j` are
equal if and only if `i = j`, one is less than the other if and only if its position is, their difference is that of the positions, and moving an
iterator by `j - i` forwards, or by `i - j` backwards, takes it from `i` to `j` (`end()` is at position `size()`). -/
theorem C32_operators {s : Rnd.Arr} (r : Reach w) (hc : c ∈ w.cs) (hL : c.ls[k]? = some (.rnd s)) (hx : c.seqs[k]? = some xs) {i j : Nat} (hi : i ≤ xs.length)
    (hj : j ≤ xs.length) :
    (Rnd.Iter.eq (xs.getD i c.hd) (xs.getD j c.hd) = decide (i = j)) ∧ (Rnd.Iter.ne (xs.getD i c.hd) (xs.getD j c.hd) = decide (i ≠ j)) ∧
    (Rnd.Iter.lt s (xs.getD i c.hd) (xs.getD j c.hd) = decide (i < j)) ∧ (Rnd.Iter.gt s (xs.getD i c.hd) (xs.getD j c.hd) = decide (j < i)) ∧
    (Rnd.Iter.le s (xs.getD i c.hd) (xs.getD j c.hd) = decide (i ≤ j)) ∧ (Rnd.Iter.ge s (xs.getD i c.hd) (xs.getD j c.hd) = decide (j ≤ i)) ∧
    (Rnd.Iter.minus s (xs.getD i c.hd) (xs.getD j c.hd) = (i : Int) - j) ∧ (Rnd.Iter.plusEq s (xs.getD i c.hd) ((j : Int) - i) = xs.getD j c.hd) ∧
    (Rnd.Iter.minusEq s (xs.getD i c.hd) ((i : Int) - j) = xs.getD j c.hd) ∧ (Rnd.Iter.at' s (xs.getD i c.hd) ((j : Int) - i) = xs.getD j c.hd) := by
  obtain ⟨a1, a2, a3⟩ := C32_container r hc hL hx hi hj
  obtain ⟨b1, b2, -⟩ := C32_container r hc hL hx hj hi
  rw [a1, b1] at a2 b2
  rw [a1, b1] at a3
  have he : Rnd.Iter.eq (xs.getD i c.hd) (xs.getD j c.hd) = decide (i = j) := by
    unfold Rnd.Iter.eq
    by_cases h : i = j
    · subst h; simp
    · rw [decide_eq_false h]
      simp only [beq_eq_false_iff_ne, ne_eq]
      intro q
      rw [q] at a2
      have : Rnd.distance s (xs.getD j c.hd) (xs.getD j c.hd) = 0 := by unfold Rnd.distance; omega
      omega
  refine ⟨he, ?_, ?_, ?_, ?_, ?_, b2, a3, ?_, a3⟩
  · unfold Rnd.Iter.ne; rw [he]; simp
  · unfold Rnd.Iter.lt; rw [a2]; exact decide_eq_decide.2 (by omega)
  · unfold Rnd.Iter.gt Rnd.Iter.lt; rw [b2]; exact decide_eq_decide.2 (by omega)
  · unfold Rnd.Iter.le Rnd.Iter.lt; rw [b2, ← decide_not]; exact decide_eq_decide.2 (by omega)
  · unfold Rnd.Iter.ge Rnd.Iter.lt; rw [a2, ← decide_not]; exact decide_eq_decide.2 (by omega)
  · unfold Rnd.Iter.minusEq
    rw [show -((i : Int) - j) = j - i by omega]
    exact a3

/-! ## Examples: the reached state of `Verif/Cont/Example.lean` -/

section
open Ex

theorem c0_ord : ∃ h, c0.ls[0]? = some (.ord true (fun a b => decide (a.1 < b.1)) h) := by
  have : (c0.asked[0]?) = some (.ord true (fun a b => decide (a.1 < b.1))) := by rw [w3_asked hc0]; rfl
  unfold Container.asked at this
  rw [List.getElem?_map] at this
  cases e : c0.ls[0]? with
  | none => rw [e] at this; cases this
  | some L =>
    rw [e] at this
    have := Option.some.inj this
    cases L with
    | ord u lt h => simp only [Layer.spec, Spec.ord.injEq] at this; obtain ⟨rfl, rfl⟩ := this; exact ⟨h, rfl⟩
    | hash => cases this
    | seq => cases this
    | rnd => cases this

/-- Lookups by the first component, a number, in the first index of `c0`: element 11 has first component 3. -/
example : ∃ h, c0.ls[0]? = some (.ord true (fun a b => decide (a.1 < b.1)) h) ∧
    Ord.find w3.m.val (fun v n => decide (v.1 < n)) (fun n v => decide (n < v.1)) c0.budget h c0.hd 3 = some 11 ∧
    Ord.count w3.m.val (fun v n => decide (v.1 < n)) (fun n v => decide (n < v.1)) c0.budget h c0.hd 2 = some 0 := by
  obtain ⟨h, hL⟩ := c0_ord
  have hx : c0.seqs[0]? = some [12, 11] := by decide +kernel
  have ce : CompatExt (fun a b : Val => decide (a.1 < b.1)) (fun v n => decide (v.1 < n)) (fun n v => decide (n < v.1)) :=
    ⟨by intro a b; simp; omega, by intro a b d; simp; omega, by intro a b d; simp; omega⟩
  obtain ⟨h1, -⟩ := C12_container w3_reach mem0 hL hx ce 3
  obtain ⟨-, -, -, -, h2, -⟩ := C12_container w3_reach mem0 hL hx ce 2
  refine ⟨h, hL, h1.trans ?_, h2.trans ?_⟩ <;> simp [w3_val.1, w3_val.2.1, equivTo, List.find?]

example : ∃ h, c0.ls[0]? = some (.ord true (fun a b => decide (a.1 < b.1)) h) ∧ Ord.nth c0.budget h c0.hd 1 = some 11 ∧ Ord.rank c0.budget h c0.hd 11 = some 1 ∧
    Ord.increment h c0.budget 12 = some 11 := by
  obtain ⟨h, hL⟩ := c0_ord
  have hx : c0.seqs[0]? = some [12, 11] := by decide +kernel
  obtain ⟨h1, h2, -⟩ := C18_container w3_reach mem0 hL hx
  exact ⟨h, hL, h1 1, h2 [12] 11 [] rfl, (C17_container (p := []) w3_reach mem0 hL hx).1⟩

/-- An empty range is at the first element that meets the lower bound: no element has a first component from 2 to 2, and one has a smaller one. -/
example : ∃ h, c0.ls[0]? = some (.ord true (fun a b => decide (a.1 < b.1)) h) ∧
    Ord.rangeRank w3.m.val (some fun v => decide (2 ≤ v.1)) (some fun v => decide (v.1 ≤ 2)) c0.budget h c0.hd c0.count = some (1, 1) := by
  obtain ⟨h, hL⟩ := c0_ord
  have hx : c0.seqs[0]? = some [12, 11] := by decide +kernel
  have e := (C19_range_container w3_reach mem0 hL hx (some fun v => decide (2 ≤ v.1)) (some fun v => decide (v.1 ≤ 2))
    (by rintro q hq; cases hq; intro a b; simp; omega) (by rintro q hq; cases hq; intro a b; simp; omega)).1
  exact ⟨h, hL, e.trans (by simp [w3_val.1, w3_val.2.1, holds])⟩

/-- The elements with first component 2 or more, and their ranks. -/
example : ∃ h, c0.ls[0]? = some (.ord true (fun a b => decide (a.1 < b.1)) h) ∧
    Ord.range w3.m.val (some fun v => decide (2 ≤ v.1)) none c0.budget h c0.hd = some (11, c0.hd) ∧
    Ord.lowerBoundRank w3.m.val (fun a b => decide (a.1 < b.1)) c0.budget h c0.hd (2, 0) = some 1 := by
  obtain ⟨h, hL⟩ := c0_ord
  have hx : c0.seqs[0]? = some [12, 11] := by decide +kernel
  obtain ⟨p, m, s, e1, e2, e3, -⟩ := C13_container w3_reach mem0 hL hx (some fun v => decide (2 ≤ v.1)) none
    (by rintro q hq; cases hq; intro a b; simp; omega) (by rintro q hq; cases hq)
  obtain ⟨-, e4, -⟩ := C19_container w3_reach mem0 hL hx sw_fst.compat (2, 0)
  have hm : m = [11] := by rw [e3]; simp [w3_val.1, w3_val.2.1, holds]
  subst hm
  have hs : s = [] := by
    rcases p with _ | ⟨a, _ | ⟨b, p⟩⟩
    · simp at e1
    · simp at e1; exact e1.2
    · have := congrArg List.length e1; simp at this
  subst hs
  exact ⟨h, hL, e2, e4.trans (by simp [w3_val.1, w3_val.2.1])⟩

theorem c0_hash : ∃ pol ml h a, c0.ls[1]? = some (.hash .multi (fun a b => a.2 == b.2) (fun a => a.2) pol ml h a) := by
  have : (c0.asked[1]?) = some (.hash .multi (fun a b => a.2 == b.2) (fun a => a.2)) := by rw [w3_asked hc0]; rfl
  unfold Container.asked at this
  rw [List.getElem?_map] at this
  cases e : c0.ls[1]? with
  | none => rw [e] at this; cases this
  | some L =>
    rw [e] at this
    have := Option.some.inj this
    cases L with
    | ord => cases this
    | hash _ _ _ pol ml h a => simp only [Layer.spec, Spec.hash.injEq] at this; obtain ⟨rfl, rfl, rfl⟩ := this; exact ⟨pol, ml, h, a, rfl⟩
    | seq => cases this
    | rnd => cases this

/-- Lookups by the second component: element 11 has second component 7. -/
example : ∃ pol ml h a, c0.ls[1]? = some (.hash .multi (fun a b => a.2 == b.2) (fun a => a.2) pol ml h a) ∧
    Hash.find c0.budget .multi (fun y => 7 == (w3.m.val y).2) 7 h a c0.hd = .ok 11 := by
  obtain ⟨pol, ml, h, a, hL⟩ := c0_hash
  have hx : c0.seqs[1]? = some [11, 12] := by decide +kernel
  obtain ⟨h1, -⟩ := C20_container w3_reach mem0 hL hx eh_snd.compat (0, 7)
  exact ⟨pol, ml, h, a, hL, h1.trans (by simp [w3_val.2.1, List.find?])⟩

example : ∃ s, c0.ls[3]? = some (.rnd s) ∧ Rnd.nth s 1 = 12 ∧ Rnd.advance s (Rnd.nth s 0) 2 = c0.hd ∧ Rnd.Iter.lt s 12 c0.hd = true := by
  have hx : c0.seqs[3]? = some [11, 12] := by decide +kernel
  have : (c0.asked[3]?) = some .rnd := by rw [w3_asked hc0]; rfl
  unfold Container.asked at this
  rw [List.getElem?_map] at this
  cases e : c0.ls[3]? with
  | none => rw [e] at this; cases this
  | some L =>
    rw [e] at this
    have := Option.some.inj this
    cases L with
    | ord => cases this
    | hash => cases this
    | seq => cases this
    | rnd s =>
      obtain ⟨h1, -, -⟩ := C32_container w3_reach mem0 e hx (i := 1) (j := 2) (by decide) (by decide)
      obtain ⟨-, -, h2⟩ := C32_container w3_reach mem0 e hx (i := 0) (j := 2) (by decide) (by decide)
      obtain ⟨h3, -, -⟩ := C32_container w3_reach mem0 e hx (i := 2) (j := 2) (by decide) (by decide)
      obtain ⟨-, -, h4, -⟩ := C32_operators w3_reach mem0 e hx (i := 1) (j := 2) (by decide) (by decide)
      exact ⟨s, rfl, h1, h2.trans h3, h4⟩

end
end MI.Cont
