import Verif.Cont.ListSpec
import Verif.Cont.ApiLemmas4
/-!
Insertion at a position of a sequenced or random access index.
-/
set_option linter.unusedVariables false
set_option linter.unusedSimpArgs false
namespace MI.Cont
open MI
variable {V : Type} {w w' : World V} {i j k : Nat} {c c' : Container V} {H : Host V}

theorem each_nth {R : Spec V → List Id → List Id → Prop} : ∀ {Ss : List (Spec V)} {a b : List (List Id)} {l : Nat} {S : Spec V} {x y : List Id},
    Each R Ss a b → Ss[l]? = some S → a[l]? = some x → b[l]? = some y → R S x y
  | S :: Ss, x :: a, y :: b, 0, _, _, _, h, e1, e2, e3 => by
    cases e1; cases e2; cases e3; exact h.1
  | S :: Ss, x :: a, y :: b, l + 1, _, _, _, h, e1, e2, e3 => each_nth (l := l) h.2 (by simpa using e1) (by simpa using e2) (by simpa using e3)
  | [], _, _, _, _, _, _, _, e1, _, _ => by simp at e1
  | _ :: _, [], _, _, _, _, _, _, _, e2, _ => by simp at e2
  | _ :: _, _ :: _, [], _, _, _, _, _, _, _, e3 => by simp at e3

theorem added_list {S : Spec V} (hS : S.list) {val : Id → V} {hint : Option Id} {x : Id} {xs ys : List Id} (h : Added val hint x S xs ys) : ys = xs ++ [x] := by
  obtain ⟨u, v, rfl, h2, h3⟩ := h
  cases S with
  | ord => exact hS.elim
  | hash => exact hS.elim
  | seq =>
    have h2 : u ++ v = xs := h2
    have h3 : v = [] := h3
    subst h2; subst h3; simp
  | rnd =>
    have h2 : u ++ v = xs := h2
    have h3 : v = [] := h3
    subst h2; subst h3; simp

theorem same_list {S : Spec V} (hS : S.list) {val : Id → V} {xs ys : List Id} (h : S.Same val xs ys) : ys = xs := by
  cases S with
  | ord => exact hS.elim
  | hash => exact hS.elim
  | seq => exact h
  | rnd => exact h

theorem same_refl (S : Spec V) (val : Id → V) (xs : List Id) : S.Same val xs xs := by
  cases S with
  | hash => exact ⟨.refl _, fun _ _ => rfl⟩
  | _ => rfl

theorem grown_list {S : Spec V} (hS : S.list) {val : Id → V} {hints : Option Id → Prop} {took xs ys : List Id} (h : Grown val hints S took xs ys) : ys = xs ++ took := by
  induction h with
  | same e => rw [same_list hS e]; simp
  | add _ a _ ih => rw [ih, added_list hS a]; simp
  | rehash e _ ih => rw [ih, same_list hS e]

theorem Grown.append {S : Spec V} {val : Id → V} {hints : Option Id → Prop} {a b xs ys zs : List Id} (h : Grown val hints S a xs ys) (g : Grown val hints S b ys zs) :
    Grown val hints S (a ++ b) xs zs := by
  induction h with
  | same e => exact .rehash e g
  | add k a _ ih => exact .add k a (ih g)
  | rehash e _ ih => exact .rehash e (ih g)

theorem grown_perm {S : Spec V} {val : Id → V} {hints : Option Id → Prop} {took xs ys : List Id} (h : Grown val hints S took xs ys) : ys.Perm (took ++ xs) := by
  induction h with
  | same e => exact Same.perm e
  | add _ a _ ih => exact ih.trans ((List.Perm.append_left _ a.perm).trans List.perm_middle)
  | rehash e _ ih => exact ih.trans (List.Perm.append_left _ (Same.perm e))

theorem grown_congr {S : Spec V} {val val' : Id → V} {hints : Option Id → Prop} {took xs ys : List Id} (h : Grown val hints S took xs ys)
    (e : ∀ z ∈ took ++ xs, val' z = val z) : Grown val' hints S took xs ys := by
  induction h with
  | same a => exact .same (same_congr (fun z hz => e z (by simpa using hz)) a)
  | add k a _ ih =>
    refine .add k (added_congr (fun z hz => e z ?_) a) (ih fun z hz => e z ?_)
    · simp only [List.mem_cons] at hz
      simp only [List.cons_append, List.mem_cons, List.mem_append]; tauto
    · rcases List.mem_append.1 hz with h | h
      · simp [h]
      · have := a.perm.mem_iff.1 h
        simp only [List.mem_cons] at this
        simp only [List.cons_append, List.mem_cons, List.mem_append]; tauto
  | rehash a _ ih =>
    refine .rehash (same_congr (fun z hz => e z (by simp [hz])) a) (ih fun z hz => e z ?_)
    rcases List.mem_append.1 hz with h | h
    · simp [h]
    · simp [(Same.perm a).mem_iff.1 h]

theorem at_unique {hd : Id} {a b a' b' : List Id} (nd : (hd :: (a ++ b)).Nodup) (e : a ++ b = a' ++ b') (h : b.headD hd = b'.headD hd) : a = a' ∧ b = b' := by
  have key : ∀ {a b a' b' : List Id}, (hd :: (a ++ b)).Nodup → a ++ b = a' ++ b' → b.headD hd = b'.headD hd → ∀ m, a' = a ++ m → b = m ++ b' → m = [] := by
    intro a b a' b' nd e h m e1 e2
    cases m with
    | nil => rfl
    | cons z m =>
      exfalso
      subst e2
      have hz : z = b'.headD hd := h
      cases b' with
      | nil =>
        have hz : z = hd := hz
        subst hz
        simp at nd
      | cons y b' =>
        have hz : z = y := hz
        subst hz
        simp [List.nodup_append] at nd
  rcases List.append_eq_append_iff.1 e with ⟨m, e1, e2⟩ | ⟨m, e1, e2⟩
  · have := key nd e h m e1 e2
    subst this
    simp at e1 e2
    exact ⟨e1.symm, e2⟩
  · have := key (by rw [← e]; exact nd) e.symm h.symm m e1 e2
    subst this
    simp at e1 e2
    exact ⟨e1, e2.symm⟩

theorem seq_len : c.seqs.length = c.asked.length := by simp [Container.seqs, Container.asked]

theorem seq_get {S : Spec V} {l : Nat} (h : c.asked[l]? = some S) : ∃ xs, c.seqs[l]? = some xs := by
  have : l < c.seqs.length := by rw [seq_len]; exact (List.getElem?_eq_some_iff.1 h).1
  exact ⟨_, List.getElem?_eq_getElem this⟩

theorem asked_get {xs : List Id} {l : Nat} (h : c.seqs[l]? = some xs) : ∃ S, c.asked[l]? = some S := by
  have : l < c.asked.length := by rw [← seq_len]; exact (List.getElem?_eq_some_iff.1 h).1
  exact ⟨_, List.getElem?_eq_getElem this⟩

theorem layer_list {S : Spec V} (hS : c.asked[k]? = some S) (hl : S.list) : ∃ L, c.ls[k]? = some L ∧ L.keyed = false ∧ L.spec = S := by
  unfold Container.asked at hS
  rw [List.getElem?_map] at hS
  cases hL : c.ls[k]? with
  | none => rw [hL] at hS; exact nomatch hS
  | some L =>
    rw [hL] at hS
    have : L.spec = S := Option.some.inj hS
    refine ⟨L, rfl, ?_, this⟩
    subst this
    cases L with
    | ord => exact hl.elim
    | hash => exact hl.elim
    | seq => rfl
    | rnd => rfl

/-- The relocation after an insertion at the end. -/
theorem place_step {S : Spec V} {s t : List Id} {x pos : Id} (r : Reach w) (hi : w.cs[i]? = some c) (hS : c.asked[k]? = some S) (hl : S.list)
    (hk : c.seqs[k]? = some (s ++ t ++ [x])) (hp : At c.hd pos t) :
    ∃ w' c', World.thenPlace i k c.hd pos (.ok (w, ⟨x, true⟩)) = .ok (w', ⟨x, true⟩) ∧ Reach w' ∧ OnlyAt w w' i c c' ∧ w'.m = w.m ∧ w'.hs = w.hs ∧
      c'.count = c.count ∧ c'.seqs = c.seqs.set k (s ++ [x] ++ t) := by
  have I := r.inv
  have nd := I.seq_nodup hi hk
  cases t with
  | nil =>
    have hp : pos = c.hd := hp
    refine ⟨w, c, by simp [World.thenPlace, hp], r, ⟨hi, (set_same hi).symm, rfl, rfl⟩, rfl, rfl, rfl, ?_⟩
    rw [set_same (by simpa using hk)]
  | cons p t =>
    have hp : pos = p := hp
    subst hp
    have nh : pos ≠ c.hd := by rintro rfl; simp at nd
    have nx : pos ≠ x := by
      rintro rfl
      simp [List.nodup_append] at nd
    obtain ⟨L, hL, kd, -⟩ := layer_list hS hl
    obtain ⟨-, -, -, pm, -⟩ := I.seq hi hk
    have l : w.Legal (.relocate i k pos x) := ⟨c, L, hi, hL, kd, pm.mem_iff.1 (by simp), List.mem_cons_of_mem _ (pm.mem_iff.1 (by simp))⟩
    obtain ⟨w1, c0, c1, k1, o, k2, k3, k4, xs, xs', k5, k6, k7, k8, k9⟩ := eff_relocate I l
    obtain rfl := Option.some.inj (o.pre.symm.trans hi)
    obtain rfl := Option.some.inj (k5.symm.trans hk)
    refine ⟨w1, c1, by simp [World.thenPlace, nh, k1], r.ok l k1, o, k2, k3, k4, ?_⟩
    rw [k6]
    congr 1
    rcases k8 with ⟨e, -⟩ | ⟨-, p, q, e1, rfl, e3⟩
    · exact absurd e nx
    · have hx : x ∉ s ++ pos :: t := by
        simp only [List.nodup_cons, List.nodup_append] at nd
        intro h
        exact nd.2.2.2 x h x (by simp) rfl
      rw [List.erase_append_right _ hx] at e1
      simp only [List.erase_cons_head, List.append_nil] at e1
      have nd' : (c0.hd :: (s ++ pos :: t)).Nodup := by
        refine nd.sublist ?_
        rw [List.cons_sublist_cons]
        exact List.sublist_append_left _ _
      obtain ⟨rfl, rfl⟩ := at_unique nd' e1 (by rw [e3]; rfl)
      simp

/-- Relocation of a range. -/
theorem range_step {S : Spec V} {u blk v s t : List Id} (r : Reach w) (hi : w.cs[i]? = some c) (hS : c.asked[k]? = some S) (hl : S.list)
    (hk : c.seqs[k]? = some (u ++ blk ++ v)) (e : u ++ v = s ++ t) :
    ∃ w' c', w.step (.rearrange i k (.relocateRange (t.headD c.hd) ((blk ++ v).headD c.hd) (v.headD c.hd))) = .ok (w', ⟨0, true⟩) ∧ Reach w' ∧ OnlyAt w w' i c c' ∧
      w'.m = w.m ∧ w'.hs = w.hs ∧ c'.count = c.count ∧ c'.seqs = c.seqs.set k (s ++ blk ++ t) := by
  have I := r.inv
  have nd := I.seq_nodup hi hk
  obtain ⟨L, hL, kd, -⟩ := layer_list hS hl
  have l : w.Legal (.rearrange i k (.relocateRange (t.headD c.hd) ((blk ++ v).headD c.hd) (v.headD c.hd))) :=
    ⟨c, L, _, hi, hL, kd, hk, u, blk, v, s, t, rfl, e, rfl, rfl, rfl⟩
  obtain ⟨w1, c0, c1, S', xs, xs', o, k2, k3, k4, -, k5, k6, -, -, k8⟩ := eff_rearrange I l
  obtain rfl := Option.some.inj (o.pre.symm.trans hi)
  obtain rfl := Option.some.inj (k5.symm.trans hk)
  have k8 : w.step (.rearrange i k (.relocateRange (t.headD c0.hd) ((blk ++ v).headD c0.hd) (v.headD c0.hd))) = .ok (w1, ⟨0, true⟩) ∧
      (Rearr.relocateRange (t.headD c0.hd) ((blk ++ v).headD c0.hd) (v.headD c0.hd)).Does c0.hd w.m.val S' (u ++ blk ++ v) xs' := by
    rcases k8 with h | h
    · exact h
    · exact h.2.elim
  obtain ⟨k9, u', blk', v', s', t', e1, e2, e3, e4, e5, rfl⟩ := k8
  refine ⟨w1, c1, k9, r.ok l k9, o, k2, k3, k4, ?_⟩
  rw [k6]
  congr 1
  obtain ⟨f1, rfl⟩ := at_unique nd e1 e5
  obtain ⟨rfl, f2⟩ := at_unique (a := u) (b := blk ++ v) (a' := u') (b' := blk' ++ v) (by simpa using nd) (by simpa using e1) e4
  obtain rfl := List.append_cancel_right f2
  obtain ⟨rfl, rfl⟩ := at_unique (hd := c0.hd) (a := s) (b := t) (by
    rw [← e]
    refine nd.sublist ?_
    rw [List.cons_sublist_cons]
    exact List.Sublist.append_right (List.sublist_append_left _ _) _) (e.symm.trans e2) e3
  rfl

theorem set_at {xss : List (List Id)} {ys xs : List Id} {l : Nat} (h : xss[k]? = some xs) : (xss.set k ys)[k]? = some ys :=
  List.getElem?_set_self (List.getElem?_eq_some_iff.1 h).1

theorem Inlaid.nil {val : Id → V} {s t : List Id} (h : c.seqs[k]? = some (s ++ t)) : Inlaid val k s t [] c c :=
  ⟨h, by simpa using h, fun l S xs ys ne h1 h2 h3 => by
    obtain rfl := Option.some.inj (h2.symm.trans h3)
    exact .same (same_refl S val _), rfl⟩

theorem Inlaid.trans {val : Id → V} {s t a b : List Id} {c1 c2 : Container V} (ha : c1.asked = c.asked) (p : Inlaid val k s t a c c1) (q : Inlaid val k (s ++ a) t b c1 c2) :
    Inlaid val k s t (a ++ b) c c2 :=
  ⟨p.before, by simpa using q.after, fun l S xs zs ne h1 h2 h3 => by
    obtain ⟨ys, hy⟩ := seq_get (c := c1) (l := l) (S := S) (by rw [ha]; exact h1)
    exact (p.others l S xs ys ne h1 h2 hy).append (q.others l S ys zs ne (by rw [ha]; exact h1) hy h3),
    by rw [q.count, p.count, List.length_append]; omega⟩

/-- After plain insertions, the new elements of index `k` are put in their place. -/
theorem Inlaid.gathered {val : Id → V} {s t took : List Id} {c1 c2 : Container V} (p : Inlaid val k (s ++ t) [] took c c1) (hc : c2.count = c1.count)
    (hs : c2.seqs = c1.seqs.set k (s ++ took ++ t)) : Inlaid val k s t took c c2 :=
  ⟨by simpa using p.before, by rw [hs]; exact set_at (l := 0) p.after, fun l S xs zs ne h1 h2 h3 => by
    rw [hs, List.getElem?_set_ne ne.symm] at h3
    exact p.others l S xs zs ne h1 h2 h3, by rw [hc, p.count]⟩

theorem inlaid_each {S : Spec V} {val : Id → V} {xs took : List Id} (hS : c.asked[k]? = some S) (hl : S.list) (hk : c.seqs[k]? = some xs) (ha : c'.asked = c.asked)
    (h : Each (fun S => Grown val (· = none) S took) c.asked c.seqs c'.seqs) (hc : c'.count = c.count + took.length) : Inlaid val k xs [] took c c' := by
  obtain ⟨ys, hy⟩ := seq_get (c := c') (l := k) (S := S) (by rw [ha]; exact hS)
  refine ⟨by simpa using hk, ?_, fun l S xs zs ne h1 h2 h3 => each_nth h h1 h2 h3, hc⟩
  have := grown_list hl (each_nth h hS hk hy)
  rw [hy, this]; simp

theorem Inlaid.perm {val : Id → V} {s t took : List Id} (I : Inv w) (I' : Inv w') (hi : w.cs[i]? = some c) (hi' : w'.cs[i]? = some c') (p : Inlaid val k s t took c c') :
    c'.elems.Perm (took ++ c.elems) := by
  obtain ⟨-, -, -, p1, -⟩ := I.seq hi p.before
  obtain ⟨-, -, -, p2, -⟩ := I'.seq hi' p.after
  refine p2.symm.trans (.trans ?_ (p1.append_left took))
  rw [← List.append_assoc]
  exact List.perm_append_comm.append_right t

theorem Inlaid.congr {val val' : Id → V} {s t took : List Id} (p : Inlaid val k s t took c c') (h : ∀ xs ∈ c.seqs, ∀ z ∈ took ++ xs, val' z = val z) :
    Inlaid val' k s t took c c' :=
  ⟨p.before, p.after, fun l S xs ys ne h1 h2 h3 => grown_congr (p.others l S xs ys ne h1 h2 h3) (h xs (List.mem_of_getElem? h2)), p.count⟩

theorem Keeps.append {Ss : List (Spec V)} : ∀ {xs vs ks vs' ks' : List V}, Keeps Ss xs vs ks → Keeps Ss (ks.reverse ++ xs) vs' ks' → Keeps Ss xs (vs ++ vs') (ks ++ ks') := by
  intro xs vs ks vs' ks' h
  induction h with
  | nil => intro g; simpa using g
  | take a _ ih => intro g; exact .take a (ih (by simpa using g))
  | skip a _ ih => intro g; exact .skip a (ih g)

theorem InsertedAt.nil {s t : List Id} (hi : w.cs[i]? = some c) (h : c.seqs[k]? = some (s ++ t)) : InsertedAt w w i k c c s t [] [] :=
  ⟨⟨hi, (set_same hi).symm, rfl, rfl⟩, .nil h, .nil, rfl, rfl, rfl, fun _ _ => rfl⟩

theorem InsertedAt.trans {w1 w2 : World V} {c1 c2 : Container V} {s t took took' : List Id} {done done' : List V} (I : Inv w) (I1 : Inv w1)
    (p : InsertedAt w w1 i k c c1 s t done took) (q : InsertedAt w1 w2 i k c1 c2 (s ++ took) t done' took') :
    InsertedAt w w2 i k c c2 s t (done ++ done') (took ++ took') := by
  have hin : ∀ z ∈ took, z ∈ w1.m.cons := fun z hz => by rw [p.cons]; simp [hz]
  have hold : ∀ z ∈ w.m.cons, z ∈ w1.m.cons := fun z hz => by rw [p.cons]; simp [hz]
  have hel : ∀ z ∈ c.elems, z ∈ w.m.cons := (I.facts p.only.pre).2.2.2.2.1
  have e1 : took.map w2.m.val = took.map w1.m.val := List.map_congr_left fun z hz => q.val z (hin z hz)
  refine ⟨p.only.trans q.only, ?_, ?_, by rw [q.alloc, p.alloc]; simp, by rw [q.cons, p.cons]; simp, q.hs.trans p.hs, fun z hz => (q.val z (hold z hz)).trans (p.val z hz)⟩
  · refine Inlaid.trans p.only.asked (p.inlaid.congr fun xs hxs z hz => ?_) q.inlaid
    rcases List.mem_append.1 hz with h | h
    · exact q.val z (hin z h)
    · exact q.val z (hold z (elem_seqs I p.only.pre hxs z h))
  · rw [List.map_append, e1]
    refine Keeps.append p.keeps ?_
    have := q.keeps
    rw [p.only.asked] at this
    refine this.congr fun v => ?_
    have pm := Inlaid.perm I I1 p.only.pre p.only.post p.inlaid
    rw [(pm.map w1.m.val).mem_iff, List.map_append, List.mem_append, List.mem_append, List.mem_reverse]
    have : c.elems.map w1.m.val = c.elems.map w.m.val := List.map_congr_left fun z hz => p.val z (hel z hz)
    rw [this]

/-- What one insertion at a position does. -/
inductive FedAt (H : Host V) (em : Bool) (i k : Nat) (pos : Id) (n : Nat) (w : World V) (c : Container V) (v : V) (s t : List Id) : Prop
  | took (w1 : World V) (x : Id) (c1 : Container V) : World.insertAt H em i k pos w n v = .ok (w1, ⟨x, true⟩) → Reach w1 → InsertedAt w w1 i k c c1 s t [v] [x] →
      w1.m.val x = v → (∀ y ∈ c.elems, ¬ Clash c.asked v (w.m.val y)) → FedAt H em i k pos n w c v s t
  | left (w1 : World V) (y : Id) (c1 : Container V) : World.insertAt H em i k pos w n v = .ok (w1, ⟨y, false⟩) → Reach w1 → InsertedAt w w1 i k c c1 s t [v] [] → Unchanged w w1 i →
      y ∈ c.elems → Clash c.asked v (w.m.val y) → FedAt H em i k pos n w c v s t
  | threw (w1 : World V) (c1 : Container V) (ret : Ret) : World.insertAt H em i k pos w n v = .threw (w1, ret) → Reach w1 → InsertedAt w w1 i k c c1 s t [] [] → Unchanged w w1 i →
      ¬ H.Calm → FedAt H em i k pos n w c v s t

theorem insertAt_spec {S : Spec V} {em : Bool} {n : Nat} {v : V} {s t : List Id} {pos : Id} (ok : H.Ok) (r : Reach w) (hi : w.cs[i]? = some c) (hS : c.asked[k]? = some S)
    (hl : S.list) (hk : c.seqs[k]? = some (s ++ t)) (hp : At c.hd pos t) : FedAt H em i k pos n w c v s t := by
  have I := r.inv
  have same : ∀ {w1 : World V} {c1 : Container V}, OnlyAt w w1 i c c1 → c1.count = c.count → Each (fun S xs ys => S.Same w.m.val xs ys) c.asked c.seqs c1.seqs → SameMemory w w1 →
      Inlaid w1.m.val k s t [] c c1 := by
    intro w1 c1 o hcnt ha sm
    have h : Inlaid w.m.val k (s ++ t) [] [] c c1 := inlaid_each hS hl hk o.asked (each_mono (fun S xs ys e => .same e) ha) (by simpa using hcnt)
    have h : Inlaid w.m.val k s t [] c c1 := ⟨hk, by simpa using h.after, h.others, h.count⟩
    exact h.congr fun xs hxs z hz => sm.val z (elem_seqs I hi hxs z (by simpa using hz))
  cases feed_step (em := em) (t := n) (v := v) (hint := none) ok r hi (fun p e => nomatch e) with
  | took w1 x c1 k1 r1 o hcnt ha hx hal hco hhs hval hcl =>
    have a := inlaid_each (took := [x]) hS hl hk o.asked (each_mono (fun S xs ys e => .add rfl e (.same (same_refl S _ _))) ha) (by simpa using hcnt)
    have hk1 : c1.seqs[k]? = some (s ++ t ++ [x]) := by simpa using a.after
    have hS1 : c1.asked[k]? = some S := by rw [o.asked]; exact hS
    obtain ⟨w2, c2, q1, q2, q3, q4, q5, q6, q7⟩ := place_step r1 o.post hS1 hl hk1 (by rw [o.hd]; exact hp)
    refine .took w2 x c2 ?_ q2 ⟨o.trans q3, ?_, ?_, by rw [q4, hal]; rfl, by rw [q4, hco]; rfl, q5.trans hhs, fun z hz => by rw [q4]; exact hval z hz⟩ (by rw [q4]; exact hx) hcl
    · rw [o.hd] at q1
      simp only [World.insertAt, hi, k1]
      exact q1
    · rw [q4]
      exact a.gathered q6 q7
    · rw [q4]
      simp only [List.map_cons, List.map_nil, hx]
      refine .take ?_ .nil
      intro v' hv'
      obtain ⟨y, hy, rfl⟩ := List.mem_map.1 hv'
      exact hcl y hy
  | left w1 y c1 k1 r1 o hcnt ha sm hy hcl =>
    refine .left w1 y c1 (by simp [World.insertAt, hi, k1, World.thenPlace]) r1 ⟨o, same o hcnt ha sm, ?_, sm.alloc, sm.cons, sm.hs, sm.val⟩ ⟨sm, c, c1, o, hcnt, ha⟩ hy hcl
    exact .skip ⟨_, List.mem_map.2 ⟨y, hy, rfl⟩, hcl⟩ .nil
  | threw w1 c1 ret k1 r1 o hcnt ha sm nc =>
    exact .threw w1 c1 ret (by simp [World.insertAt, hi, k1, World.thenPlace]) r1 ⟨o, same o hcnt ha sm, .nil, sm.alloc, sm.cons, sm.hs, sm.val⟩ ⟨sm, c, c1, o, hcnt, ha⟩ nc

/-- How the insertion of a range at a position ends. -/
def EndsAt (H : Host V) (w : World V) (i k : Nat) (c : Container V) (s t : List Id) (vs : List V) (o : Out (World V)) : Prop :=
  ∃ w' c' done took, InsertedAt w w' i k c c' s t done took ∧ Reach w' ∧
    ((o = .ok w' ∧ done = vs) ∨ (o = .threw w' ∧ ¬ H.Calm ∧ ∃ v rest, vs = done ++ v :: rest))

theorem insertEach_spec {S : Spec V} {em : Bool} {t : List Id} {pos : Id} (ok : H.Ok) (hl : S.list) : ∀ {vs : List V} {s : List Id} {w : World V} {c : Container V} (n : Nat),
    Reach w → w.cs[i]? = some c → c.asked[k]? = some S → c.seqs[k]? = some (s ++ t) → At c.hd pos t → EndsAt H w i k c s t vs (World.insertEach H em i k pos w vs n)
  | [], s, w, c, n, r, hi, hS, hk, hp => ⟨w, c, [], [], .nil hi hk, r, Or.inl ⟨rfl, rfl⟩⟩
  | v :: vs, s, w, c, n, r, hi, hS, hk, hp => by
    have I := r.inv
    cases insertAt_spec (em := em) (n := n) (v := v) ok r hi hS hl hk hp with
    | took w1 x c1 k1 r1 g hx hcl =>
      obtain ⟨w2, c2, done, took, f, r2, q⟩ := insertEach_spec (em := em) (vs := vs) (s := s ++ [x]) ok hl (n + 1) r1 g.only.post (by rw [g.only.asked]; exact hS)
        (by simpa using g.inlaid.after) (by rw [g.only.hd]; exact hp)
      refine ⟨w2, c2, [v] ++ done, [x] ++ took, g.trans I r1.inv f, r2, ?_⟩
      rw [show World.insertEach H em i k pos w (v :: vs) n = World.insertEach H em i k pos w1 vs (n + 1) by simp only [World.insertEach, k1]]
      rcases q with ⟨a, b⟩ | ⟨a, b, z, rest, d⟩
      · exact Or.inl ⟨a, by rw [b]; rfl⟩
      · exact Or.inr ⟨a, b, z, rest, by rw [d]; rfl⟩
    | left w1 y c1 k1 r1 g un hy hcl =>
      obtain ⟨w2, c2, done, took, f, r2, q⟩ := insertEach_spec (em := em) (vs := vs) (s := s) ok hl (n + 1) r1 g.only.post (by rw [g.only.asked]; exact hS)
        (by simpa using g.inlaid.after) (by rw [g.only.hd]; exact hp)
      refine ⟨w2, c2, [v] ++ done, [] ++ took, g.trans I r1.inv (by simpa using f), r2, ?_⟩
      rw [show World.insertEach H em i k pos w (v :: vs) n = World.insertEach H em i k pos w1 vs (n + 1) by simp only [World.insertEach, k1]]
      rcases q with ⟨a, b⟩ | ⟨a, b, z, rest, d⟩
      · exact Or.inl ⟨a, by rw [b]; rfl⟩
      · exact Or.inr ⟨a, b, z, rest, by rw [d]; rfl⟩
    | threw w1 c1 ret k1 r1 g un nc =>
      exact ⟨w1, c1, [], [], g, r1, Or.inr ⟨by simp only [World.insertEach, k1], nc, v, vs, rfl⟩⟩

theorem insertAt_end {em : Bool} {n : Nat} {v : V} (hi : w.cs[i]? = some c) : World.insertAt H em i k c.hd w n v = w.step (insertOp H em i w n v none) := by
  simp only [World.insertAt, hi]
  cases w.step (insertOp H em i w n v none) with
  | ok p => simp [World.thenPlace]
  | threw p => rfl
  | ub => rfl
  | hang => rfl

theorem pushEach_spec {S : Spec V} {em : Bool} (ok : H.Ok) (hl : S.list) : ∀ {vs : List V} {s : List Id} {w : World V} {c : Container V} (n m : Nat),
    Reach w → w.cs[i]? = some c → c.asked[k]? = some S → c.seqs[k]? = some s →
    ∃ w' c' done took, InsertedAt w w' i k c c' s [] done took ∧ Reach w' ∧
      ((World.pushEach H em i w vs n m = .ok (w', m + took.length) ∧ done = vs) ∨
       (World.pushEach H em i w vs n m = .threw (w', m + took.length) ∧ ¬ H.Calm ∧ ∃ v rest, vs = done ++ v :: rest))
  | [], s, w, c, n, m, r, hi, hS, hk => ⟨w, c, [], [], .nil hi (by simpa using hk), r, Or.inl ⟨rfl, rfl⟩⟩
  | v :: vs, s, w, c, n, m, r, hi, hS, hk => by
    have I := r.inv
    cases insertAt_spec (em := em) (n := n) (v := v) (t := []) (pos := c.hd) ok r hi hS hl (by simpa using hk) rfl with
    | took w1 x c1 k1 r1 g hx hcl =>
      rw [insertAt_end hi] at k1
      obtain ⟨w2, c2, done, took, f, r2, q⟩ := pushEach_spec (em := em) (vs := vs) (s := s ++ [x]) ok hl (n + 1) (m + 1) r1 g.only.post (by rw [g.only.asked]; exact hS)
        (by simpa using g.inlaid.after)
      refine ⟨w2, c2, [v] ++ done, [x] ++ took, g.trans I r1.inv f, r2, ?_⟩
      rw [show World.pushEach H em i w (v :: vs) n m = World.pushEach H em i w1 vs (n + 1) (m + 1) by simp only [World.pushEach, k1, if_true],
        show m + ([x] ++ took).length = m + 1 + took.length by simp; omega]
      rcases q with ⟨a, b⟩ | ⟨a, b, z, rest, d⟩
      · exact Or.inl ⟨a, by rw [b]; rfl⟩
      · exact Or.inr ⟨a, b, z, rest, by rw [d]; rfl⟩
    | left w1 y c1 k1 r1 g un hy hcl =>
      rw [insertAt_end hi] at k1
      obtain ⟨w2, c2, done, took, f, r2, q⟩ := pushEach_spec (em := em) (vs := vs) (s := s) ok hl (n + 1) m r1 g.only.post (by rw [g.only.asked]; exact hS)
        (by simpa using g.inlaid.after)
      refine ⟨w2, c2, [v] ++ done, [] ++ took, g.trans I r1.inv (by simpa using f), r2, ?_⟩
      rw [show World.pushEach H em i w (v :: vs) n m = World.pushEach H em i w1 vs (n + 1) m by simp [World.pushEach, k1]]
      rcases q with ⟨a, b⟩ | ⟨a, b, z, rest, d⟩
      · exact Or.inl ⟨a, by rw [b]; rfl⟩
      · exact Or.inr ⟨a, b, z, rest, by rw [d]; rfl⟩
    | threw w1 c1 ret k1 r1 g un nc =>
      rw [insertAt_end hi] at k1
      exact ⟨w1, c1, [], [], g, r1, Or.inr ⟨by simp [World.pushEach, k1], nc, v, vs, rfl⟩⟩

theorem gather_spec {s t took : List Id} {pos : Id} (r : Reach w) (hi : w.cs[i]? = some c) (hS : c.asked[k]? = some .rnd)
    (hk : c.seqs[k]? = some (s ++ t ++ took)) (hp : At c.hd pos t) :
    ∃ w' c', World.gather i k pos (s ++ t).length w = .ok w' ∧ Reach w' ∧ OnlyAt w w' i c c' ∧ w'.m = w.m ∧ w'.hs = w.hs ∧ c'.count = c.count ∧
      c'.seqs = c.seqs.set k (s ++ took ++ t) := by
  have hp : pos = t.headD c.hd := hp
  obtain ⟨w1, c1, k1, q⟩ := range_step (s := s) (t := t) (u := s ++ t) (blk := took) (v := []) r hi hS trivial (by simpa using hk) (by simp)
  refine ⟨w1, c1, ?_, q⟩
  obtain ⟨L, hL, h2, h3, h4, -⟩ := r.inv.seq' hi hS hk
  cases L with
  | ord => exact nomatch h4
  | hash => exact nomatch h4
  | seq => exact nomatch h4
  | rnd a =>
    have h2 : Rnd.Rep a c.hd (s ++ t ++ took) := h2
    have ha : a.arr (s ++ t).length = took.headD c.hd := by
      refine (h2.2.2 _ _ ?_).1
      rw [List.append_assoc, List.getElem?_append_right (Nat.le_refl _), Nat.sub_self]
      cases took <;> rfl
    have k1 : w.step (.rearrange i k (.relocateRange pos (a.arr (s ++ t).length) c.hd)) = .ok (w1, ⟨0, true⟩) := by
      rw [ha, hp]; simpa using k1
    simp only [World.gather, hi, hL, k1]

theorem count_seq {xs : List Id} (I : Inv w) (hi : w.cs[i]? = some c) (h : c.seqs[k]? = some xs) : c.count = xs.length := by
  obtain ⟨-, -, -, p, -⟩ := I.seq hi h
  rw [p.length_eq, (I.facts hi).2.1.count]

theorem insertRangeAt_spec {S : Spec V} {em : Bool} {vs : List V} {s t : List Id} {pos : Id} (ok : H.Ok) (r : Reach w) (hi : w.cs[i]? = some c) (hS : c.asked[k]? = some S)
    (hl : S.list) (hk : c.seqs[k]? = some (s ++ t)) (hp : At c.hd pos t) : EndsAt H w i k c s t vs (World.insertRangeAt H em i k pos w vs) := by
  have I := r.inv
  obtain ⟨L, hL, kd, h4⟩ := layer_list hS hl
  cases L with
  | ord => exact nomatch kd
  | hash => exact nomatch kd
  | seq h =>
    rw [show World.insertRangeAt H em i k pos w vs = World.insertEach H em i k pos w vs 0 by simp only [World.insertRangeAt, hi, hL]]
    exact insertEach_spec ok hl 0 r hi hS hk hp
  | rnd a =>
    obtain rfl : Spec.rnd = S := h4
    rw [show World.insertRangeAt H em i k pos w vs = World.pushedAt i k pos (World.pushEach H em i w vs 0 0) by simp only [World.insertRangeAt, hi, hL]]
    obtain ⟨w1, c1, done, took, f, r1, q⟩ := pushEach_spec (em := em) (vs := vs) ok hl 0 0 r hi hS hk
    have hk1 : c1.seqs[k]? = some (s ++ t ++ took) := by simpa using f.inlaid.after
    obtain ⟨w2, c2, g1, g2, g3, g4, g5, g6, g7⟩ := gather_spec (pos := pos) r1 f.only.post (by rw [f.only.asked]; exact hS) hk1 (by rw [f.only.hd]; exact hp)
    have hn : c1.count - (0 + took.length) = (s ++ t).length := by
      rw [count_seq r1.inv f.only.post hk1, List.length_append (bs := took)]; omega
    refine ⟨w2, c2, done, took, ⟨f.only.trans g3, ?_, ?_, by rw [g4]; exact f.alloc, by rw [g4]; exact f.cons, g5.trans f.hs, by rw [g4]; exact f.val⟩, g2, ?_⟩
    · rw [g4]; exact f.inlaid.gathered g6 g7
    · rw [g4]; exact f.keeps
    rcases q with ⟨a, b⟩ | ⟨a, b, d⟩
    · exact Or.inl ⟨by simp only [World.pushedAt, a, f.only.post, hn, g1], b⟩
    · exact Or.inr ⟨by simp only [World.pushedAt, a, f.only.post, hn, World.afterAll, g1], b, d⟩

end MI.Cont
