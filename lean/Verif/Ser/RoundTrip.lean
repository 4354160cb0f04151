import Verif.Ser.LoadLemmas2

/-! Loading what was saved restores the order of every index. -/
namespace MI.Ser
open MI MI.Cont
variable {V : Type} {w : World V} {i : Nat} {c : Container V}

theorem saveLoop_map {o o' : Id → Bool} {f : Id → Id} : ∀ (xs : List Id) (p : Id) (ls : Nat), (∀ x ∈ xs, o' (f x) = o x) →
    saveLoop o' (f p) ls (xs.map f) = ((saveLoop o p ls xs).1.map (Option.map f), (saveLoop o p ls xs).2)
  | [], _, _, _ => rfl
  | x :: xs, p, ls, h => by
    have hx := h x (by simp)
    have ih := fun n => saveLoop_map xs x n (fun y hy => h y (List.mem_cons_of_mem _ hy))
    cases ho : o x with
    | false =>
      simp only [List.map_cons, saveLoop, hx, ho, if_true, ih]
      split <;> simp
    | true =>
      simp only [List.map_cons, saveLoop, hx, ho, Bool.true_eq_false, if_false, ih]
      split <;> simp

theorem saveFrom_map {o o' : Id → Bool} {f : Id → Id} (xs : List Id) (h : ∀ x ∈ xs, o' (f x) = o x) :
    (saveFrom o (xs.headD 0) 3 xs).map (Option.map f) = saveFrom o' ((xs.map f).headD 0) 3 (xs.map f) := by
  cases xs with
  | nil => rfl
  | cons x xs =>
    have := saveLoop_map (o := o) (o' := o') (f := f) (x :: xs) x 3 h
    simp only [saveFrom, List.headD_cons, List.map_cons] at this ⊢
    rw [this]
    by_cases hh : (saveLoop o x 3 (x :: xs)).2 ≤ 2 <;> simp [hh]

theorem dups_map {e e' : Id → Id → Bool} {f : Id → Id} {xs : List Id} (inj : ∀ x ∈ xs, ∀ y ∈ xs, f x = f y → x = y)
    (h : ∀ x ∈ xs, ∀ y ∈ xs, e' (f x) (f y) = e x y) : dups e' (xs.map f) = (dups e xs).map f := by
  unfold dups
  rw [List.filter_map]
  refine congrArg (List.map f) (List.filter_congr fun x hx => ?_)
  simp only [Function.comp, List.any_map]
  rw [Bool.eq_iff_iff, List.any_eq_true, List.any_eq_true]
  constructor
  · rintro ⟨y, hy, h1⟩
    simp only [Function.comp, Bool.and_eq_true, decide_eq_true_eq] at h1
    exact ⟨y, hy, by
      have h2 := h1.2
      rw [h x hx y hy] at h2
      simp only [Bool.and_eq_true, decide_eq_true_eq]
      exact ⟨fun e => h1.1 (congrArg f e), h2⟩⟩
  · rintro ⟨y, hy, h1⟩
    simp only [Bool.and_eq_true, decide_eq_true_eq] at h1
    exact ⟨y, hy, by simp only [Function.comp, h x hx y hy, h1.2, Bool.and_true, decide_eq_true_eq]; exact fun e => h1.1 (inj y hy x hx e)⟩

theorem listed_map {val val' : Id → V} {f : Id → Id} {xs : List Id} (S : Spec V) (inj : ∀ x ∈ xs, ∀ y ∈ xs, f x = f y → x = y)
    (h : ∀ x ∈ xs, val' (f x) = val x) : listed val' (xs.map f) S = (listed val xs S).map f := by
  cases S with
  | ord u lt => exact dups_map inj (fun x hx y hy => by rw [h x hx, h y hy])
  | hash c eq hf => rfl
  | seq => rfl
  | rnd => rfl

theorem good_map {val val' : Id → V} {f : Id → Id} {xs : List Id} {S : Spec V} (hr : Rearranged S = true) (h : ∀ x ∈ xs, val' (f x) = val x)
    (g : S.Good val xs) : S.Good val' (xs.map f) := by
  cases S with
  | ord u lt =>
    obtain rfl : u = false := by simpa [Rearranged] using hr
    have g : xs.Pairwise (fun a b => lt (val b) (val a) = false) := g
    show (xs.map f).Pairwise (fun a b => lt (val' b) (val' a) = false)
    rw [List.pairwise_map]
    exact g.imp_of_mem fun {a b} ha hb h1 => by rw [h a ha, h b hb]; exact h1
  | hash c eq hf => simp [Rearranged] at hr
  | seq => trivial
  | rnd => trivial

theorem kept_filter {o : Id → Bool} : ∀ {l : List (Id × Bool)}, (∀ a ∈ l, a.2 = true → o a.1 = true) → (kept l).Sublist ((l.map (·.1)).filter o)
  | [], _ => .slnil
  | (x, b) :: l, h => by
    have ih := kept_filter (l := l) (fun a ha => h a (List.mem_cons_of_mem _ ha))
    cases b with
    | true =>
      have := h (x, true) (by simp) rfl
      simp only [kept, List.filter_cons, if_true, List.map_cons, this] at ih ⊢
      exact ih.cons_cons _
    | false =>
      simp only [kept, List.filter_cons, Bool.false_eq_true, if_false, List.map_cons] at ih ⊢
      split
      · exact ih.cons _
      · exact ih

/-- `b` was saved, `f x` is the new node of `x`, `es` are the new nodes. -/
structure Twin (val val' : Id → V) (b es : List Id) (f : Id → Id) : Prop where
  map : b.map f = es
  nodup : b.Nodup
  nodup' : es.Nodup
  val : ∀ x ∈ b, val' (f x) = val x

theorem Twin.inj {val val' : Id → V} {b es : List Id} {f : Id → Id} (t : Twin val val' b es f) {x y : Id} (hx : x ∈ b) (hy : y ∈ b) (e : f x = f y) : x = y := by
  have h := t.nodup'
  rw [← t.map] at h
  exact List.inj_on_of_nodup_map h hx hy e

/-- One index with a stream. -/
theorem restore_one {val val' : Id → V} {b es : List Id} {f : Id → Id} (t : Twin val val' b es f) {S : Spec V} (hr : Rearranged S = true) (ok : S.Ok)
    {X cur : List Id} (hX : X.Perm b) (gX : S.Good val X) (hc : cur.Perm es) (gc : S.Good val' cur) (hq : Poured val' es cur S) {o : Id → Bool}
    (ho : ((listed val X S).filter o).Sublist b) (us : List (Option Id)) :
    ∃ ins, parse (sortEntries es) none ((saveFrom o ((listed val X S).headD 0) 3 (listed val X S)).map (Option.map f) ++ us) = (ins, true, us) ∧
      S.moves val' cur ins = (X.map f, true) := by
  have hD : (listed val X S).Sublist X := listed_sublist val X S
  have mb : ∀ x ∈ X, x ∈ b := fun x hx => hX.mem_iff.1 hx
  -- the flags, seen from the new nodes
  have hinv : ∃ g : Id → Id, ∀ x ∈ b, g (f x) = x := by
    refine ⟨fun y => (b.find? fun x => decide (f x = y)).getD 0, fun x hx => ?_⟩
    cases e : b.find? (fun x' => decide (f x' = f x)) with
    | none =>
      have := (List.find?_eq_none.1 e) x hx
      simp at this
    | some x' =>
      have h1 := List.find?_some e
      have h2 := List.mem_of_find?_eq_some e
      show (b.find? fun x' => decide (f x' = f x)).getD 0 = x
      rw [e]
      exact t.inj h2 hx (by simpa using h1)
  obtain ⟨g, hg⟩ := hinv
  have e1 : (saveFrom o ((listed val X S).headD 0) 3 (listed val X S)).map (Option.map f) =
      saveFrom (fun y => o (g y)) (((listed val X S).map f).headD 0) 3 ((listed val X S).map f) :=
    saveFrom_map _ (fun x hx => by rw [hg x (mb x (hD.subset hx))])
  have nD' : ((listed val X S).map f).Nodup := by
    refine List.Nodup.map_on (fun x hx y hy e => t.inj (mb x (hD.subset hx)) (mb y (hD.subset hy)) e) ((hX.nodup_iff.2 t.nodup).sublist hD)
  have mD' : ∀ y ∈ (listed val X S).map f, y ∈ es := by
    intro y hy
    obtain ⟨x, hx, rfl⟩ := List.mem_map.1 hy
    rw [← t.map]
    exact List.mem_map_of_mem (mb x (hD.subset hx))
  obtain ⟨l, l1, l2, l3⟩ := parse_save (es := sortEntries es) (o := fun y => o (g y)) us nD' (fun y hy => by rw [checkNode_mem]; simp [mD' y hy])
  refine ⟨script none l, by rw [e1]; exact l3, ?_⟩
  refine restored hr ok t.nodup' (by rw [← t.map]; exact hX.map f) hc (good_map hr (fun x hx => t.val x (mb x hx)) gX) gc hq ?_ ?_
  · rw [listed_map S (fun x hx y hy e => t.inj (mb x hx) (mb y hy) e) (fun x hx => t.val x (mb x hx))]
    exact l1
  · refine (kept_filter (o := fun y => o (g y)) l2).trans ?_
    rw [show l.map (·.1) = (listed val X S).map f from l1, List.filter_map, ← t.map]
    refine List.Sublist.map f ?_
    rw [List.filter_congr (q := o)]
    · exact ho
    · intro x hx
      simp only [Function.comp, hg x (mb x (hD.subset hx))]

/-- The sequence of an index is as it was saved (hashed indices: not necessarily). -/
def Back (f : Id → Id) (X ys : List Id) : Spec V → Prop
  | .hash _ _ _ => True
  | _ => ys = X.map f

theorem back_other {val val' : Id → V} {b es : List Id} {f : Id → Id} (t : Twin val val' b es f) {S : Spec V} (hr : Rearranged S = false) (ok : S.Ok)
    {X cur : List Id} (hX : X.Perm b) (gX : S.Good val X) (hc : cur.Perm es) (gc : S.Good val' cur) : Back f X cur S := by
  cases S with
  | ord u lt =>
    obtain rfl : u = true := by simpa [Rearranged] using hr
    have sw : StrictWeak lt := ok
    have gX : X.Pairwise (fun a b => lt (val a) (val b) = true) := gX
    have gc : cur.Pairwise (fun a b => lt (val' a) (val' b) = true) := gc
    have gX' : (X.map f).Pairwise (fun a b => lt (val' a) (val' b) = true) := by
      rw [List.pairwise_map]
      exact gX.imp_of_mem fun {a b} ha hb h1 => by rw [t.val a (hX.mem_iff.1 ha), t.val b (hX.mem_iff.1 hb)]; exact h1
    refine List.Perm.eq_of_pairwise (fun a b _ _ h1 h2 => ?_) gc gX' (hc.trans (by rw [← t.map]; exact (hX.map f).symm))
    rw [sw.asymm h1] at h2
    exact nomatch h2
  | hash c eq hf => trivial
  | seq => simp [Rearranged] at hr
  | rnd => simp [Rearranged] at hr

/-- Loading the pointers of a saved container. -/
theorem loadIndices_restore {val : Id → V} {b es : List Id} {f : Id → Id} {xss : List (List Id)} (hX : ∀ X ∈ xss, X.Perm b) :
    ∀ (n k : Nat) {w : World V} {c : Container V} (ts : List (Option Id)), Reach w → w.cs[i]? = some c → c.elems.Perm es → c.ls.length = k + n →
    Twin val w.m.val b es f → (∀ (j : Nat) S X, c.asked[j]? = some S → xss[j]? = some X → S.Good val X) →
    Streams val b (c.asked.drop k) (xss.drop k) ts →
    (∀ (j : Nat) S ys, k ≤ j → c.asked[j]? = some S → c.seqs[j]? = some ys → Poured w.m.val es ys S) →
    ∃ w' c', loadIndices {} i es n k w (ts.map (Option.map f)) = .ok w' ∧ Reach w' ∧ OnlyAt w w' i c c' ∧ w'.m = w.m ∧ w'.hs = w.hs ∧
      c'.elems.Perm es ∧ (∀ (j : Nat), j < k → c'.seqs[j]? = c.seqs[j]?) ∧
      (∀ (j : Nat) S X ys, k ≤ j → c.asked[j]? = some S → xss[j]? = some X → c'.seqs[j]? = some ys → Back f X ys S)
  | 0, k, w, c, ts, r, hi, hp, hl, t, hg, hs, hq => by
    refine ⟨w, c, rfl, r, ⟨hi, (set_same hi).symm, rfl, rfl⟩, rfl, rfl, hp, fun _ _ => rfl, fun j S X ys hj hS => ?_⟩
    have := (List.getElem?_eq_some_iff.1 hS).1
    simp [Container.asked, hl] at this
    omega
  | n + 1, k, w, c, ts, r, hi, hp, hl, t, hg, hs, hq => by
    have I := r.inv
    have hk : k < c.ls.length := by omega
    have hkA : k < c.asked.length := by simpa [Container.asked] using hk
    have hS : c.asked[k]? = some c.ls[k].spec := by simp [Container.asked, hk]
    have hdrop : c.asked.drop k = c.ls[k].spec :: c.asked.drop (k + 1) := by
      rw [List.drop_eq_getElem_cons hkA]
      simp [Container.asked]
    rw [hdrop] at hs
    -- the sequence saved
    obtain ⟨X, hXk, hdX⟩ : ∃ X, xss[k]? = some X ∧ xss.drop k = X :: xss.drop (k + 1) := by
      cases hd : xss.drop k with
      | nil => rw [hd] at hs; exact hs.elim
      | cons X yss =>
        have hkx : k < xss.length := by
          rcases Nat.lt_or_ge k xss.length with h | h
          · exact h
          · rw [List.drop_eq_nil_iff.2 h] at hd; exact nomatch hd
        rw [List.drop_eq_getElem_cons hkx] at hd
        obtain ⟨rfl, rfl⟩ := List.cons.inj hd
        exact ⟨_, List.getElem?_eq_getElem hkx, rfl⟩
    rw [hdX] at hs
    -- the sequence now
    obtain ⟨cur, hcur⟩ : ∃ cur, c.seqs[k]? = some cur := by
      refine ⟨c.seqs[k]'(by simpa [Container.seqs] using hk), List.getElem?_eq_getElem _⟩
    obtain ⟨L, hL, g2, g3, g4, g5⟩ := I.seq' hi hS hcur
    obtain ⟨-, -, -, g6, -⟩ := I.seq hi hcur
    obtain rfl : c.ls[k] = L := by simpa [List.getElem?_eq_getElem hk] using hL
    have pX := hX X (List.mem_of_getElem? hXk)
    have gX := hg k _ X hS hXk
    have gc : c.ls[k].spec.Good w.m.val cur := g2.good g5
    have pc := g6.trans hp
    have hq0 := hq k _ cur (Nat.le_refl _) hS hcur
    -- the rest
    have rest : ∀ {w1 : World V} {c1 : Container V} (us : List (Option Id)), loadIndex {} w i k es (ts.map (Option.map f)) = .ok (w1, us.map (Option.map f)) →
        Reach w1 → OnlyAt w w1 i c c1 → w1.m = w.m → w1.hs = w.hs → c1.elems.Perm es → Streams val b (c.asked.drop (k + 1)) (xss.drop (k + 1)) us →
        (∀ j : Nat, j ≠ k → c1.seqs[j]? = c.seqs[j]?) → (∀ ys, c1.seqs[k]? = some ys → Back f X ys c.ls[k].spec) →
        ∃ w' c', loadIndices {} i es (n + 1) k w (ts.map (Option.map f)) = .ok w' ∧ Reach w' ∧ OnlyAt w w' i c c' ∧ w'.m = w.m ∧ w'.hs = w.hs ∧
          c'.elems.Perm es ∧ (∀ (j : Nat), j < k → c'.seqs[j]? = c.seqs[j]?) ∧
          (∀ (j : Nat) S X ys, k ≤ j → c.asked[j]? = some S → xss[j]? = some X → c'.seqs[j]? = some ys → Back f X ys S) := by
      intro w1 c1 us e1 r1 o q1 q2 q3 q4 q5 q6
      have hlen : c1.ls.length = c.ls.length := by
        have := congrArg List.length o.asked
        simpa [Container.asked] using this
      obtain ⟨w', c', z1, z2, z3, z4, z5, z6, z7, z8⟩ := loadIndices_restore hX n (k + 1) us r1 o.post q3 (by omega) (by rw [q1]; exact t)
        (by rw [o.asked]; exact hg) (by rw [o.asked]; exact q4) (by
          intro j S ys hj hSj hys
          rw [q1]
          rw [o.asked] at hSj
          rw [q5 j (by omega)] at hys
          exact hq j S ys (by omega) hSj hys)
      refine ⟨w', c', by simp only [loadIndices, e1]; exact z1, z2, o.trans z3, z4.trans q1, z5.trans q2, z6, ?_, ?_⟩
      · intro j hj
        rw [z7 j (by omega), q5 j (by omega)]
      · intro j S X' ys hj hSj hXj hys
        rcases Nat.lt_or_ge k j with h | h
        · exact z8 j S X' ys h (by rw [o.asked]; exact hSj) hXj hys
        · obtain rfl : j = k := by omega
          obtain rfl := Option.some.inj (hS.symm.trans hSj)
          obtain rfl := Option.some.inj (hXk.symm.trans hXj)
          exact q6 ys (by rw [← z7 j (by omega)]; exact hys)
    simp only [Streams] at hs
    cases hr : Rearranged c.ls[k].spec with
    | false =>
      rw [hr] at hs
      simp only [Bool.false_eq_true, if_false] at hs
      refine rest ts ?_ r ⟨hi, (set_same hi).symm, rfl, rfl⟩ rfl rfl hp hs (fun _ _ => rfl) ?_
      · simp only [loadIndex, hi, List.getElem?_eq_getElem hk, hasStream_spec, hr, Bool.false_eq_true, if_false]
      · intro ys hys
        obtain rfl := Option.some.inj (hcur.symm.trans hys)
        exact back_other t hr g5 pX gX pc gc
    | true =>
      rw [hr] at hs
      simp only [if_true] at hs
      obtain ⟨o, us, rfl, ho, hus⟩ := hs
      obtain ⟨ins, e1, e2⟩ := restore_one t hr g5 pX gX pc gc hq0 ho (us.map (Option.map f))
      have hleg := parse_legal es ((saveFrom o ((listed val X c.ls[k].spec).headD 0) 3 (listed val X c.ls[k].spec)).map (Option.map f) ++ us.map (Option.map f)) none (by simp)
      rw [e1] at hleg
      have l : w.Legal (.place i k false ins) := ⟨c, c.ls[k], hi, List.getElem?_eq_getElem hk, fun a ha =>
        ⟨hp.mem_iff.2 (hleg a ha).1, fun q hq => ⟨hp.mem_iff.2 ((hleg a ha).2 q hq).1, ((hleg a ha).2 q hq).2⟩⟩⟩
      obtain ⟨w1, c0, c1, S, xs, xs', o1, k2, k3, -, k5, k6, k7, k8, p, k1⟩ := eff_place I l
      obtain rfl := Option.some.inj (o1.pre.symm.trans hi)
      obtain rfl := Option.some.inj (hS.symm.trans k5)
      obtain rfl := Option.some.inj (hcur.symm.trans k6)
      rcases k1 with ⟨k1, k9⟩ | ⟨k1, k9 | ⟨-, k9⟩⟩
      · rw [e2] at k9
        obtain rfl : X.map f = xs' := (Prod.ext_iff.1 k9).1
        refine rest us ?_ (r.ok l k1) o1 k2 k3 (p.trans hp) hus ?_ ?_
        · simp only [loadIndex, hi, List.getElem?_eq_getElem hk, hasStream_spec, hr, if_true, List.map_append, e1, k1]
        · intro j hj
          rw [k7, List.getElem?_set_ne (fun h => hj h.symm)]
        · intro ys hys
          rw [k7, List.getElem?_set_self (by simpa [Container.seqs] using hk)] at hys
          obtain rfl := Option.some.inj hys
          cases hsp : c0.ls[k].spec <;> first | trivial | rfl
      · rw [e2] at k9
        exact nomatch (Prod.ext_iff.1 k9).2
      · exact nomatch k9

end MI.Ser
