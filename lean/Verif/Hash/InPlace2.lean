import Verif.Hash.InPlace
import Verif.Hash.Move
set_option linter.unusedSimpArgs false
/-! `in_place` on the whole table: it is true exactly when the table with the element where it is remains well formed. -/
namespace MI.Hash
open MI

section
variable {c : Cat} {eq eq' : Id → Id → Bool} {hash hash' : Id → Nat} {h : Heap} {a : Arr} {hd x : Id} {T : Tab}

/-- The value of `x` may have changed, other values have not. -/
structure Chg (eq eq' : Id → Id → Bool) (hash hash' : Id → Nat) (x : Id) : Prop where
  he : ∀ y z, y ≠ x → z ≠ x → eq' y z = eq y z
  hh : ∀ y, y ≠ x → hash' y = hash y

/-- The table without `x` is well formed for the new values. -/
theorem Good.without (r : Rep h a hd T) (gd : Good c a.size eq hash T) (ch : Chg eq eq' hash hash' x) {i : Nat} {G1 G2 : List Grp} {g : Grp}
    (hB : T.B i = G1 ++ g :: G2) (xg : x ∈ g.toList) :
    Good c a.size eq' hash' (T.put i (G1 ++ (g.remove x).toList ++ G2)) := by
  have bnd := r.bucket_nodup i
  rw [hB] at bnd
  simp only [gnodes_append, gnodes_cons] at bnd
  have n1 : x ∉ gnodes G1 := fun k => (List.nodup_append.1 bnd).2.2 x k x (by simp [xg]) rfl
  have n2 : x ∉ gnodes G2 := fun k => (List.nodup_append.1 (List.nodup_append.1 bnd).2.1).2.2 x xg x k rfl
  have gnd := (List.nodup_append.1 (List.nodup_append.1 bnd).2.1).1
  have rs := Grp.remove_spec g x gnd xg
  have hs : ∀ q, g.remove x = some q → q.toList = g.toList.erase x := by
    intro q e
    rw [e] at rs
    simpa using rs
  have gd1 := gd.shrink (o := g.remove x) hB (fun q e => by rw [hs q e]; exact List.erase_sublist) (by
    intro hc
    obtain ⟨y, rfl⟩ := gd.cat hc i g (by rw [hB]; simp)
    rfl)
  have ne : ∀ j, ∀ y ∈ gnodes ((T.put i (G1 ++ (g.remove x).toList ++ G2)).B j), y ≠ x := by
    rintro j y hy rfl
    simp only [Tab.put] at hy
    by_cases e : j = i
    · subst e
      simp only [upd_same, gnodes_append, List.mem_append] at hy
      rcases hy with (hy | hy) | hy
      · exact n1 hy
      · obtain ⟨q, hq, yq⟩ := mem_gnodes.1 hy
        have hq : g.remove y = some q := by simpa using hq
        rw [hs q hq] at yq
        exact List.Nodup.not_mem_erase gnd yq
      · exact n2 hy
    · rw [upd_other _ _ e] at hy
      exact r.bucket_disj (Ne.symm e) (mem_gnodes.2 ⟨g, by rw [hB]; simp, xg⟩) hy
  exact gd1.congr (fun j y hy => ch.hh y (ne j y hy)) (fun j y hy z hz => ch.he y z (ne j y hy) (ne j z hz))

theorem parts_first (q : Grp) : ∃ q' ∈ q.parts, q'.first = q.first := by
  cases q with
  | one y => exact ⟨_, by simp [Grp.parts], rfl⟩
  | many f mid l => cases mid <;> exact ⟨_, by simp [Grp.parts]; first | left; rfl | rfl, by simp⟩

/-- The same nodes and links with the groups of one bucket drawn differently. -/
theorem Rep.redraw (r : Rep h a hd T) {i : Nat} {L : List Grp} (e : L.flatMap Grp.parts = (T.B i).flatMap Grp.parts) :
    Rep h a hd ⟨T.ord, upd T.B i L⟩ ∧ (⟨T.ord, upd T.B i L⟩ : Tab).nodes = T.nodes := by
  have hp : (⟨T.ord, upd T.B i L⟩ : Tab).parts = T.parts := by
    unfold Tab.parts
    simp only [Tab.mk.injEq, true_and]
    funext j
    by_cases k : j = i
    · subst k; simp [e]
    · simp [upd_other _ _ k]
  refine ⟨?_, ?_⟩
  · rw [← rep_parts, hp, rep_parts]
    exact r
  · rw [← Tab.parts_nodes, hp, Tab.parts_nodes]

theorem put_put_B (i : Nat) (D L : List Grp) : ((T.put i D).put i L).B = upd T.B i L := by
  funext j
  by_cases k : j = i
  · subst k; simp [Tab.put]
  · simp [Tab.put, upd_other _ _ k]

theorem put_self_B {i : Nat} {L : List Grp} (D : List Grp) (e : T.B i = L) : ((T.put i D).put i L).B = T.B := by
  rw [put_put_B]
  funext j
  by_cases k : j = i
  · subst k; simp [e]
  · simp [upd_other _ _ k]

/-- Soundness when `x` is alone or in a group of two. -/
theorem inPlace_single (r : Rep h a hd T) (gd : Good c a.size eq hash T) (eh' : EqHash eq' hash') (ch : Chg eq eq' hash hash' x)
    {G1 G2 D1 D2 : List Grp} {g : Grp} (hB : T.B (hash' x % a.size) = G1 ++ g :: G2) (xg : x ∈ g.toList)
    (hD : D1 ++ D2 = G1 ++ (g.remove x).toList ++ G2)
    (hP : (T.B (hash' x % a.size)).flatMap Grp.parts = D1.flatMap Grp.parts ++ .one x :: D2.flatMap Grp.parts)
    (n1 : x ∉ gnodes D1) (n2 : x ∉ gnodes D2)
    (hs : (c = .multi ∧ ipSem (eq' x) x (D1.flatMap Grp.parts ++ .one x :: D2.flatMap Grp.parts) false 0 = true) ∨
      ∀ y ∈ gnodes (D1 ++ D2), eq' x y = false) :
    ∃ T', Rep h a hd T' ∧ Good c a.size eq' hash' T' ∧ T'.nodes = T.nodes := by
  have gD := gd.without r ch hB xg
  rw [← hD] at gD
  have one : (∀ y ∈ gnodes (D1 ++ D2), eq' x y = false) → ∃ T', Rep h a hd T' ∧ Good c a.size eq' hash' T' ∧ T'.nodes = T.nodes := by
    intro hno
    have rd := r.redraw (i := hash' x % a.size) (L := D1 ++ .one x :: D2) (by rw [hP]; simp [Grp.parts])
    refine ⟨_, rd.1, ?_, rd.2⟩
    refine (gD.addOne eh' (x := x) (i := hash' x % a.size) (G1 := D1) (G2 := D2) rfl (by simp [Tab.put]) (by simpa [Tab.put] using hno)).of_B ?_
    rw [put_put_B]
  rcases hs with ⟨rfl, hs⟩ | hs
  · have hq : ∀ q ∈ D1 ++ D2, ∀ y ∈ q.toList, ∀ z ∈ q.toList, eq' x y = eq' x z := by
      intro q hq y hy z hz
      have := gD.same (hash' x % a.size) q (by simpa [Tab.put] using hq) y hy z hz
      rw [eh'.comm x y, eh'.comm x z]
      exact eh'.congr this x
    rcases ipSem_single (eq' x) x (by rw [gnodes_parts]; exact n1) (by rw [gnodes_parts]; exact n2) hs with
      k | ⟨b, R1', e, pb, k⟩ | ⟨b, R2', e, pb, k1, k2⟩
    · apply one
      intro y hy
      obtain ⟨q, hqm, yq⟩ := mem_gnodes.1 hy
      obtain ⟨q', hq', ef⟩ := parts_first q
      rw [hq q hqm y yq q.first q.first_mem, ← ef]
      apply k
      rw [← List.flatMap_append, List.mem_flatMap]
      exact ⟨q, hqm, hq'⟩
    · rcases List.eq_nil_or_concat' D1 with rfl | ⟨D1', q, rfl⟩
      · simp at e
      · rw [List.flatMap_append, List.flatMap_singleton] at e
        have qe : q = .one b := by
          cases q with
          | one y => simp [Grp.parts] at e; rw [e.2]
          | many f mid l =>
            cases mid with
            | nil =>
              have e' : (D1'.flatMap Grp.parts ++ [.one f]) ++ [.one l] = R1' ++ [.one b] := by rw [← e]; simp [Grp.parts]
              have e2 := List.append_inj' e' rfl
              simp only [List.cons.injEq, Grp.one.injEq, and_true] at e2
              obtain ⟨e2, rfl⟩ := e2
              have := k (.one f) (by rw [← e2]; simp)
              rw [Grp.first_one, hq (.many f [] l) (by simp) f (by simp) l (by simp), pb] at this
              cases this
            | cons s m =>
              have e2 := List.append_inj' e (by simp [Grp.parts])
              simp [Grp.parts] at e2
        subst qe
        have rd := r.redraw (i := hash' x % a.size) (L := D1' ++ .many b [] x :: D2) (by rw [hP]; simp [Grp.parts])
        refine ⟨_, rd.1, ?_, rd.2⟩
        refine (gD.join eh' (x := x) (i := hash' x % a.size) (G1 := D1') (G2 := D2) (g := .one b) (g' := .many b [] x) rfl
          (by simp [Tab.put]) (by simpa using pb) (by simp [or_comm])).of_B ?_
        rw [put_put_B]
    · cases D2 with
      | nil => simp at e
      | cons q D2' =>
        rw [List.flatMap_cons] at e
        have qe : q = .one b := by
          cases q with
          | one y => simp [Grp.parts] at e; rw [e.1]
          | many f mid l =>
            cases mid with
            | nil =>
              simp only [Grp.parts, List.cons_append, List.nil_append, List.cons.injEq, Grp.one.injEq] at e
              obtain ⟨rfl, e⟩ := e
              have := k2 (.one l) (by rw [← e]; simp)
              rw [Grp.first_one, hq (.many f [] l) (by simp) l (by simp) f (by simp), pb] at this
              cases this
            | cons s m => simp [Grp.parts] at e
        subst qe
        have rd := r.redraw (i := hash' x % a.size) (L := D1 ++ .many x [] b :: D2') (by rw [hP]; simp [Grp.parts])
        refine ⟨_, rd.1, ?_, rd.2⟩
        refine (gD.join eh' (x := x) (i := hash' x % a.size) (G1 := D1) (G2 := D2') (g := .one b) (g' := .many x [] b) rfl
          (by simp [Tab.put]) (by simpa using pb) (by simp)).of_B ?_
        rw [put_put_B]
  · exact one hs

/-- The value of `in_place` in terms of the groups of the bucket. -/
def ipRes (c : Cat) (p : Id → Bool) (x : Id) (gs : List Grp) : Bool :=
  match c with
  | .uniq => decide (x ∈ gnodes gs) && (gnodes gs).all (fun y => y == x || !p y)
  | .multi => ipSem p x (gs.flatMap Grp.parts) false 0

/-- `in_place` in terms of the bucket. -/
theorem inPlace_eval (r : Rep h a hd T) (oc : OfCat c T) (p : Id → Bool) (hk : Nat) {n : Nat} (s0 : 0 < a.size) (hn : T.nodes.length ≤ n) :
    inPlace n c p hk h a x = .ok (ipRes c p x (T.B (hk % a.size))) := by
  have hl := Nat.mod_lt hk s0
  have len : (gnodes (T.B (hk % a.size))).length ≤ n := by
    refine Nat.le_trans ?_ hn
    by_cases hB : T.B (hk % a.size) = []
    · rw [hB]; simp
    · obtain ⟨o1, o2, e⟩ := List.append_of_mem ((r.ordB _).2 hB)
      rw [nodes_split e]
      simp only [List.length_append]
      omega
  unfold inPlace Arr.at Arr.position
  cases c with
  | uniq =>
    simp only
    rw [r.bucketFirst hl, inPlaceU_spec r oc p x (gnodes (T.B (hk % a.size))) [] n false rfl len]
    simp [ipRes]
  | multi =>
    simp only
    have r' := rep_parts.2 r
    rw [r'.bucketFirst hl]
    have gp : gnodes (T.parts.B (hk % a.size)) = gnodes (T.B (hk % a.size)) := gnodes_parts _
    exact inPlaceN_spec r' oc.parts (fun i g hg => parts_solid T i g hg) p x _ [] n false 0 rfl (by rw [gp]; exact len)

/-- If `in_place` says yes, the table remains well formed for the new values. -/
theorem inPlace_sound (r : Rep h a hd T) (gd : Good c a.size eq hash T) (eh' : EqHash eq' hash') (ch : Chg eq eq' hash hash' x)
    {n : Nat} (s0 : 0 < a.size) (hn : T.nodes.length ≤ n) (hi : inPlace n c (eq' x) (hash' x) h a x = .ok true) :
    ∃ T', Rep h a hd T' ∧ Good c a.size eq' hash' T' ∧ T'.nodes = T.nodes := by
  rw [inPlace_eval r gd.cat (eq' x) (hash' x) s0 hn] at hi
  have hi := Out.ok.inj hi
  have xb : x ∈ gnodes (T.B (hash' x % a.size)) := by
    cases c with
    | uniq => simp only [ipRes, Bool.and_eq_true, decide_eq_true_eq] at hi; exact hi.1
    | multi =>
      by_contra k
      simp only [ipRes] at hi
      rw [ipSem_none _ _ _ _ (by rw [gnodes_parts]; exact k)] at hi
      cases hi
  obtain ⟨g, gm, xg⟩ := mem_gnodes.1 xb
  obtain ⟨G1, G2, hB⟩ := List.append_of_mem gm
  have bnd := r.bucket_nodup (hash' x % a.size)
  rw [hB] at bnd
  simp only [gnodes_append, gnodes_cons] at bnd
  have n1 : x ∉ gnodes G1 := fun k => (List.nodup_append.1 bnd).2.2 x k x (by simp [xg]) rfl
  have n2 : x ∉ gnodes G2 := fun k => (List.nodup_append.1 (List.nodup_append.1 bnd).2.1).2.2 x xg x k rfl
  have gnd := (List.nodup_append.1 (List.nodup_append.1 bnd).2.1).1
  cases c with
  | uniq =>
    obtain ⟨y, rfl⟩ := gd.cat rfl _ g gm
    simp only [Grp.toList_one, List.mem_singleton] at xg
    subst xg
    refine inPlace_single (D1 := G1) (D2 := G2) r gd eh' ch hB (by simp) (by simp [Grp.remove]) (by rw [hB]; simp [Grp.parts]) n1 n2 ?_
    right
    intro y hy
    simp only [ipRes, Bool.and_eq_true, decide_eq_true_eq, List.all_eq_true, hB, gnodes_append, gnodes_cons, Grp.toList_one] at hi
    have := hi.2 y (by simp only [gnodes_append, List.mem_append] at hy; simp only [List.mem_append, List.mem_singleton]; tauto)
    have yx : y ≠ x := by
      rintro rfl
      rw [gnodes_append, List.mem_append] at hy
      exact hy.elim n1 n2
    simpa [yx] using this
  | multi =>
    simp only [ipRes] at hi
    cases g with
    | one y =>
      simp only [Grp.toList_one, List.mem_singleton] at xg
      subst xg
      have hP : (T.B (hash' x % a.size)).flatMap Grp.parts = G1.flatMap Grp.parts ++ .one x :: G2.flatMap Grp.parts := by
        rw [hB]; simp [Grp.parts]
      rw [hP] at hi
      exact inPlace_single (D1 := G1) (D2 := G2) r gd eh' ch hB (by simp) (by simp [Grp.remove]) hP n1 n2 (Or.inl ⟨rfl, hi⟩)
    | many f mid l =>
      cases mid with
      | nil =>
        simp only [Grp.toList_many, List.nil_append, List.mem_cons, List.not_mem_nil, or_false] at xg
        simp only [Grp.toList_many, List.nil_append, List.nodup_cons, List.mem_singleton] at gnd
        by_cases k : x = f
        · subst k
          have hP : (T.B (hash' x % a.size)).flatMap Grp.parts = G1.flatMap Grp.parts ++ .one x :: (Grp.one l :: G2).flatMap Grp.parts := by
            rw [hB]; simp [Grp.parts]
          rw [hP] at hi
          refine inPlace_single (D1 := G1) (D2 := .one l :: G2) r gd eh' ch hB (by simp) (by simp [Grp.remove]) hP n1 ?_ (Or.inl ⟨rfl, hi⟩)
          simp only [gnodes_cons, Grp.toList_one, List.mem_append, List.mem_singleton, not_or]
          exact ⟨gnd.1, n2⟩
        · have xl : x = l := xg.resolve_left k
          subst xl
          have hP : (T.B (hash' x % a.size)).flatMap Grp.parts = (G1 ++ [Grp.one f]).flatMap Grp.parts ++ .one x :: G2.flatMap Grp.parts := by
            rw [hB]; simp [Grp.parts]
          rw [hP] at hi
          refine inPlace_single (D1 := G1 ++ [.one f]) (D2 := G2) r gd eh' ch hB (by simp) (by simp [Grp.remove, k]) hP ?_ n2 (Or.inl ⟨rfl, hi⟩)
          simp only [gnodes_append, gnodes_cons, gnodes_nil, Grp.toList_one, List.mem_append, List.mem_singleton, List.not_mem_nil, or_false, not_or]
          exact ⟨n1, k⟩
      | cons s m =>
        have hP : (T.B (hash' x % a.size)).flatMap Grp.parts = G1.flatMap Grp.parts ++ .many f (s :: m) l :: G2.flatMap Grp.parts := by
          rw [hB]; simp [Grp.parts]
        rw [hP] at hi
        obtain ⟨y, hy, yx, py⟩ := ipSem_many (eq' x) x xg ⟨f, s :: m, l, rfl, by simpa using (List.nodup_cons.1 gnd).1⟩ _ _ _ _
          (by rw [gnodes_parts]; exact n1) (by rw [gnodes_parts]; exact n2) rfl hi
        have gD := gd.without r ch hB xg
        obtain ⟨g0, e0⟩ : ∃ g0, (Grp.many f (s :: m) l).remove x = some g0 := by
          simp only [Grp.remove]
          split
          · exact ⟨_, rfl⟩
          · split <;> exact ⟨_, rfl⟩
        have rs := Grp.remove_spec _ x gnd xg
        rw [e0] at rs
        simp only [Option.map_some, Option.getD_some] at rs
        rw [e0] at gD
        have m0 : ∀ z, z ∈ g0.toList ↔ z ≠ x ∧ z ∈ (Grp.many f (s :: m) l).toList := fun z => by rw [rs]; exact List.Nodup.mem_erase_iff gnd
        have B0 : (T.put (hash' x % a.size) (G1 ++ (some g0).toList ++ G2)).B (hash' x % a.size) = G1 ++ g0 :: G2 := by simp [Tab.put]
        refine ⟨T, r, ?_, rfl⟩
        refine (gD.join eh' (x := x) rfl B0 (g' := .many f (s :: m) l) ?_ ?_).of_B (put_self_B _ hB).symm
        · intro z hz
          exact eh'.trans py (gD.same _ g0 (by rw [B0]; simp) y ((m0 y).2 ⟨yx, hy⟩) z hz)
        · intro z
          rw [m0]
          by_cases k : z = x
          · subst k; simpa using xg
          · simp [k]

/-- If the element can stay where it is, `in_place` says yes. -/
theorem inPlace_complete {T' : Tab} (r : Rep h a hd T') (gd : Good c a.size eq' hash' T') (eh' : EqHash eq' hash')
    {n : Nat} (s0 : 0 < a.size) (hn : T'.nodes.length ≤ n) (xm : x ∈ T'.nodes) :
    inPlace n c (eq' x) (hash' x) h a x = .ok true := by
  rw [inPlace_eval r gd.cat (eq' x) (hash' x) s0 hn]
  obtain ⟨G1, g, G2, pre, post, hB, xg, -, h1, -, h3⟩ := r.group_of gd eh' (p := eq' x) (hk := hash' x) (fun y z h1 h2 => eh'.trans h1 h2)
    (fun y z h1 h2 => eh'.trans (eh'.symm h1) h2) (fun y h1 => eh'.cons h1) xm (eh'.refl x)
  have bnd := r.bucket_nodup (hash' x % a.size)
  rw [hB] at bnd
  congr 1
  cases c with
  | uniq =>
    obtain ⟨y, rfl⟩ := gd.cat rfl _ g (by rw [hB]; simp)
    simp only [Grp.toList_one, List.mem_singleton] at xg
    subst xg
    simp only [hB, ipRes, Bool.and_eq_true, decide_eq_true_eq, List.all_eq_true, gnodes_append, gnodes_cons, Grp.toList_one]
    refine ⟨by simp, fun y hy => ?_⟩
    by_cases k : y = x
    · simp [k]
    · simp only [List.mem_append, List.mem_singleton] at hy h3
      have := h3 y (by tauto)
      simp [this]
  | multi =>
    simp only [ipRes]
    rw [hB]
    exact ipSem_complete (eq' x) x xg bnd (fun y hy _ => h1 y hy) (fun y hy => h3 y (by simp [hy])) (fun y hy => h3 y (by simp [hy]))

end
end MI.Hash
