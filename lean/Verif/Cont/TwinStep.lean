import Verif.Cont.TwinLemmas
/-!
One operation of two programs that look alike.
-/
set_option linter.unusedVariables false
set_option linter.unusedSimpArgs false
namespace MI.Cont
open MI
variable {V : Type} {g : Prop} {φ ψ : Id → Id} {w v w1 v1 : World V} {i j k : Nat} {c d c1 d1 : Container V} {x x' : Id}

theorem each_intro {R : Spec V → List Id → List Id → Prop} : ∀ {Ss : List (Spec V)} {a b : List (List Id)}, a.length = Ss.length → b.length = Ss.length →
    (∀ (l : Nat) S x y, Ss[l]? = some S → a[l]? = some x → b[l]? = some y → R S x y) → Each R Ss a b
  | [], [], [], _, _, _ => trivial
  | S :: Ss, x :: a, y :: b, h1, h2, h => ⟨h 0 S x y rfl rfl rfl, each_intro (by simpa using h1) (by simpa using h2) fun l S' x' y' e1 e2 e3 =>
      h (l + 1) S' x' y' (by simpa using e1) (by simpa using e2) (by simpa using e3)⟩
  | [], _ :: _, _, h, _, _ => nomatch h
  | [], [], _ :: _, _, h, _ => nomatch h
  | _ :: _, [], _, h, _, _ => nomatch h
  | _ :: _, _ :: _, [], _, h, _ => nomatch h

/-- From containers that look alike to others, index by index. -/
theorem alike_of {val val' val1 val1' : Id → V} (h : c.Alike g φ val val' d) (hc : c1.asked = c.asked) (hd : d1.asked = d.asked) (cnt : d1.count = c1.count)
    (P : ∀ (l : Nat) S xs ys xs1 ys1, c.asked[l]? = some S → c.seqs[l]? = some xs → d.seqs[l]? = some ys → c1.seqs[l]? = some xs1 → d1.seqs[l]? = some ys1 →
      S.Alike g φ val val' xs ys → S.Alike g ψ val1 val1' xs1 ys1) : c1.Alike g ψ val1 val1' d1 := by
  have e1 : c1.seqs.length = c1.asked.length := seq_len
  have e2 : d1.seqs.length = d1.asked.length := seq_len
  refine ⟨by rw [hd, hc, h.asked], cnt, each_intro e1 (by rw [e2, hd, h.asked, hc]) fun l S xs1 ys1 k1 k2 k3 => ?_⟩
  rw [hc] at k1
  obtain ⟨xs, hx⟩ := seq_get k1
  obtain ⟨ys, hy⟩ := seq_get (c := d) (by rw [h.asked]; exact k1)
  exact P l S xs ys xs1 ys1 k1 hx hy k2 k3 (each_nth h.seqs k1 hx hy)

theorem alike_elems {val val' : Id → V} (ne : c.asked ≠ []) (h : c.Alike g φ val val' d) : d.elems.Perm (c.elems.map φ) := by
  obtain ⟨S, -, e⟩ := each_head h.seqs ne
  exact e.perm

/-- What is known about container `i` of both programs. -/
structure Pair (g : Prop) (φ : Id → Id) (w v : World V) (i : Nat) (c d : Container V) : Prop where
  hi : w.cs[i]? = some c
  hj : v.cs[i]? = some d
  like : c.Alike g φ w.m.val v.m.val d
  elems : d.elems.Perm (c.elems.map φ)
  nd : c.elems.Nodup
  nd' : d.elems.Nodup
  cons : ∀ z ∈ c.elems, z ∈ w.m.cons
  val : ∀ z ∈ c.elems, v.m.val (φ z) = w.m.val z
  ok : ∀ S ∈ c.asked, S.Ok

theorem World.Alike.pair (A : w.Alike g φ v) (I : Inv w) (J : Inv v) (hi : w.cs[i]? = some c) : ∃ d, Pair g φ w v i c d := by
  have hl : i < v.cs.length := by
    rw [A.len]
    exact (List.getElem?_eq_some_iff.1 hi).1
  have hj : v.cs[i]? = some v.cs[i] := List.getElem?_eq_getElem hl
  have k := A.cs i c _ hi hj
  obtain ⟨-, s, -, -, h5, -⟩ := I.facts hi
  obtain ⟨-, s', -⟩ := J.facts hj
  exact ⟨_, hi, hj, k, alike_elems (asked_ne s) k, (List.nodup_cons.1 s.nodup).2, (List.nodup_cons.1 s'.nodup).2, h5, fun z hz => A.val z (h5 z hz), s.ok⟩

theorem World.Alike.pair' (A : w.Alike g φ v) (I : Inv w) (J : Inv v) (hi : w.cs[i]? = some c) (hj : v.cs[i]? = some d) : Pair g φ w v i c d := by
  obtain ⟨d', p⟩ := A.pair I J hi
  obtain rfl := Option.some.inj (hj.symm.trans p.hj)
  exact p

theorem Pair.mem (p : Pair g φ w v i c d) (hx : x ∈ c.elems) : φ x ∈ d.elems := p.elems.mem_iff.2 (List.mem_map_of_mem hx)

theorem Pair.mem' (p : Pair g φ w v i c d) (A : w.Alike g φ v) (hx : x ∈ w.m.cons) (h : φ x ∈ d.elems) : x ∈ c.elems := by
  obtain ⟨y, hy, e⟩ := List.mem_map.1 (p.elems.mem_iff.1 h)
  rw [← A.inj y (p.cons y hy) x hx e]
  exact hy

theorem Pair.bans (p : Pair g φ w v i c d) {a : V} : d.Bans v.m.val [] a ↔ c.Bans w.m.val [] a := by
  unfold Container.Bans
  rw [p.like.asked]
  constructor
  · rintro ⟨S, h1, h2, y, h3, -, h5⟩
    obtain ⟨z, hz, rfl⟩ := List.mem_map.1 (p.elems.mem_iff.1 h3)
    exact ⟨S, h1, h2, z, hz, by simp, by rw [← p.val z hz]; exact h5⟩
  · rintro ⟨S, h1, h2, y, h3, -, h5⟩
    exact ⟨S, h1, h2, φ y, p.mem h3, by simp, by rw [p.val y h3]; exact h5⟩

theorem Pair.bans_but (p : Pair g φ w v i c d) (A : w.Alike g φ v) {a : V} (hx : x ∈ c.elems) : d.Bans v.m.val [φ x] a ↔ c.Bans w.m.val [x] a := by
  unfold Container.Bans
  rw [p.like.asked]
  constructor
  · rintro ⟨S, h1, h2, y, h3, h4, h5⟩
    obtain ⟨z, hz, rfl⟩ := List.mem_map.1 (p.elems.mem_iff.1 h3)
    exact ⟨S, h1, h2, z, hz, by rw [List.mem_singleton] at h4 ⊢; rintro rfl; exact h4 rfl, by rw [← p.val z hz]; exact h5⟩
  · rintro ⟨S, h1, h2, y, h3, h4, h5⟩
    exact ⟨S, h1, h2, φ y, p.mem h3, by
      rw [List.mem_singleton] at h4 ⊢
      exact fun k => h4 (A.inj _ (p.cons y h3) _ (p.cons x hx) k), by rw [p.val y h3]; exact h5⟩

/-- Only container `i` has changed. -/
theorem World.Alike.put (A : w.Alike g φ v) (I : Inv w) (hi : w.cs[i]? = some c) (hw : w1.cs = w.cs.set i c1) (hv : v1.cs = v.cs.set i d1)
    (new : c1.Alike g ψ w1.m.val v1.m.val d1) (a1 : ∀ z ∈ w.m.cons, z ∉ c.elems → ψ z = φ z) (a2 : ∀ z ∈ w.m.cons, z ∉ c.elems → w1.m.val z = w.m.val z)
    (a3 : ∀ z ∈ w.m.cons, z ∉ c.elems → v1.m.val (φ z) = v.m.val (φ z))
    (val : ∀ z ∈ w1.m.cons, v1.m.val (ψ z) = w1.m.val z) (node : ∀ z ∈ w1.m.cons, ψ z ∈ v1.m.cons)
    (inj : ∀ y ∈ w1.m.cons, ∀ z ∈ w1.m.cons, ψ y = ψ z → y = z) (hs : v1.hs = w1.hs.map (Option.map ψ)) : w1.Alike g ψ v1 := by
  refine ⟨val, node, inj, hs, by rw [hw, hv]; simpa using A.len, fun l e f he hf => ?_⟩
  rw [hw] at he
  rw [hv] at hf
  by_cases q : i = l
  · subst q
    have h1 : i < w.cs.length := (List.getElem?_eq_some_iff.1 hi).1
    have h2 : i < v.cs.length := by rw [A.len]; exact h1
    rw [List.getElem?_set_self h1] at he
    rw [List.getElem?_set_self h2] at hf
    cases he; cases hf
    exact new
  · rw [List.getElem?_set_ne q] at he hf
    have k := A.cs l e f he hf
    have off : ∀ z ∈ e.elems, z ∈ w.m.cons ∧ z ∉ c.elems := fun z hz => ⟨I.elem_cons (List.mem_of_getElem? he) hz, fun hc => by
      refine I.disj hi (d := e) (z := z) ?_ (List.mem_cons_of_mem _ hc) (List.mem_cons_of_mem _ hz)
      exact List.mem_eraseIdx_iff_getElem?.2 ⟨l, fun k => q k.symm, he⟩⟩
    refine alike_of k rfl rfl k.count fun m S xs ys xs1 ys1 h1 h2 h3 h4 h5 h6 => ?_
    rw [h2] at h4
    rw [h3] at h5
    cases h4; cases h5
    have pm := (I.seq he h2).choose_spec.2.2.1
    have me : ∀ z ∈ xs, z ∈ w.m.cons ∧ z ∉ c.elems := fun z hz => off z (pm.mem_iff.1 hz)
    exact h6.congr (fun z hz => a1 z (me z hz).1 (me z hz).2) (fun z hz => a2 z (me z hz).1 (me z hz).2) (fun z hz => a3 z (me z hz).1 (me z hz).2)

/-- What one operation of both programs leads to. -/
structure Outcome (g : Prop) (ψ : Id → Id) (w v : World V) (r r' : Ret) : Prop where
  flag : r'.b = r.b
  pos : r.b = true → r.pos ∈ w.m.cons → r'.pos = ψ r.pos
  like : w.Alike g ψ v

theorem hint_maps {hint hint' : Option Id} (p : Pair g φ w v i c d) (I : Inv w) (J : Inv v) (h : HintAlike φ c d hint hint') {xs ys : List Id} (hx : c.seqs[k]? = some xs)
    (hy : d.seqs[k]? = some ys) : HintMaps φ xs ys hint hint' := by
  have n1 := I.seq_nodup p.hi hx
  have n2 := J.seq_nodup p.hj hy
  have pm := (I.seq p.hi hx).choose_spec.2.2.1
  cases hint with
  | none => cases hint' with
    | none => trivial
    | some q => exact h.elim
  | some a => cases hint' with
    | none => exact h.elim
    | some q =>
      rcases h with ⟨rfl, rfl⟩ | ⟨h1, rfl⟩
      · exact Or.inl ⟨(List.nodup_cons.1 n1).1, (List.nodup_cons.1 n2).1⟩
      · exact Or.inr ⟨pm.mem_iff.2 h1, rfl⟩

/-- The facts about index `l` of both containers. -/
theorem Pair.index (p : Pair g φ w v i c d) (I : Inv w) (J : Inv v) {l : Nat} {xs ys : List Id} (hx : c.seqs[l]? = some xs) (hy : d.seqs[l]? = some ys) :
    xs.Perm c.elems ∧ ys.Perm d.elems ∧ xs.Nodup ∧ ys.Nodup ∧ (∀ z ∈ xs, v.m.val (φ z) = w.m.val z) := by
  have p1 := (I.seq p.hi hx).choose_spec.2.2.1
  have p2 := (J.seq p.hj hy).choose_spec.2.2.1
  exact ⟨p1, p2, p1.nodup_iff.2 p.nd, p2.nodup_iff.2 p.nd', fun z hz => p.val z (p1.mem_iff.1 hz)⟩

theorem unchanged_like (A : w.Alike g φ v) (I : Inv w) (J : Inv v) (hψ : ∀ z ∈ w.m.cons, ψ z = φ z) (u : Unchanged w w1 i) (u' : Unchanged v v1 i) :
    w1.Alike g ψ v1 := by
  obtain ⟨m, c, c1, o, hc, e⟩ := u
  obtain ⟨m', d, d1, o', hc', e'⟩ := u'
  have p := A.pair' I J o.pre o'.pre
  refine A.put I o.pre o.cs o'.cs ?_ (fun z hz _ => hψ z hz) (fun z hz _ => m.val z hz) (fun z hz _ => m'.val _ (A.node z hz)) ?_ ?_ ?_ ?_
  · refine alike_of p.like o.asked o'.asked (by rw [hc, hc', p.like.count]) fun l S xs ys xs1 ys1 h1 h2 h3 h4 h5 h6 => ?_
    obtain ⟨q1, q2, q3, q4, q5⟩ := p.index I J h2 h3
    have s1 := each_nth e h1 h2 h4
    have s2 := each_nth e' (by rw [p.like.asked]; exact h1) h3 h5
    have b := h6.same (p.ok S (List.mem_of_getElem? h1)) s1 s2
    have me : ∀ z ∈ xs1, z ∈ w.m.cons := fun z hz => p.cons z (q1.mem_iff.1 ((Same.perm s1).mem_iff.1 hz))
    exact b.congr (fun z hz => hψ z (me z hz)) (fun z hz => m.val z (me z hz)) (fun z hz => m'.val _ (A.node z (me z hz)))
  · intro z hz
    rw [m.cons] at hz
    rw [hψ z hz, m'.val _ (A.node z hz), m.val z hz]
    exact A.val z hz
  · intro z hz
    rw [m.cons] at hz
    rw [hψ z hz, m'.cons]
    exact A.node z hz
  · intro y hy z hz e
    rw [m.cons] at hy hz
    rw [hψ z hz, hψ y hy] at e
    exact A.inj y hy z hz e
  · rw [m.hs, m'.hs, A.hs]
    refine List.map_congr_left fun a ha => ?_
    cases a with
    | none => rfl
    | some z => exact congrArg some (hψ z (I.handle_cons (List.mem_filterMap.2 ⟨some z, ha, rfl⟩))).symm

theorem hs_congr (I : Inv w) (h : ∀ z ∈ w.m.cons, ψ z = φ z) : w.hs.map (Option.map ψ) = w.hs.map (Option.map φ) := by
  refine List.map_congr_left fun a ha => ?_
  cases a with
  | none => rfl
  | some z => exact congrArg some (h z (I.handle_cons (List.mem_filterMap.2 ⟨some z, ha, rfl⟩)))

/-- An element `x`, corresponding to `ψ x`, has been added. -/
theorem gained_cont {hint hint' : Option Id} (A : w.Alike g φ v) (I : Inv w) (J : Inv v) (hψ : ∀ z ∈ w.m.cons, ψ z = φ z) (hv : v1.m.val (ψ x) = w1.m.val x)
    (hh : Both w v i (fun c d => HintAlike φ c d hint hint')) (k1 : ∀ z ∈ w.m.cons, w1.m.val z = w.m.val z) (k2 : ∀ z ∈ v.m.cons, v1.m.val z = v.m.val z)
    (o : OnlyAt w w1 i c c1) (o' : OnlyAt v v1 i d d1) (hc : c1.count = c.count + 1) (hc' : d1.count = d.count + 1)
    (e : Each (Added w1.m.val hint x) c.asked c.seqs c1.seqs) (e' : Each (Added v1.m.val hint' (ψ x)) d.asked d.seqs d1.seqs) :
    c1.Alike g ψ w1.m.val v1.m.val d1 := by
  have p := A.pair' I J o.pre o'.pre
  refine alike_of p.like o.asked o'.asked (by rw [hc, hc', p.like.count]) fun l S xs ys xs1 ys1 h1 h2 h3 h4 h5 h6 => ?_
  obtain ⟨q1, q2, q3, q4, q5⟩ := p.index I J h2 h3
  have me : ∀ z ∈ xs, z ∈ w.m.cons := fun z hz => p.cons z (q1.mem_iff.1 hz)
  have b := h6.congr (fun z hz => hψ z (me z hz)) (fun z hz => k1 z (me z hz)) (fun z hz => k2 _ (A.node z (me z hz)))
  have hm : HintMaps φ xs ys hint hint' := hint_maps p I J (hh c d o.pre o'.pre) h2 h3
  refine b.added (p.ok S (List.mem_of_getElem? h1)) q4 ?_ ?_ (each_nth e h1 h2 h4) (each_nth e' (by rw [p.like.asked]; exact h1) h3 h5)
  · intro z hz
    rcases List.mem_cons.1 hz with rfl | hz
    · exact hv
    · rw [hψ z (me z hz), k1 z (me z hz), k2 _ (A.node z (me z hz))]
      exact q5 z hz
  · cases hint with
    | none => cases hint' with
      | none => trivial
      | some q => exact hm.elim
    | some a => cases hint' with
      | none => exact hm.elim
      | some q =>
        rcases hm with hm | ⟨hm, rfl⟩
        · exact Or.inl hm
        · exact Or.inr ⟨hm, (hψ a (me a hm)).symm⟩

theorem gained_like {hint hint' : Option Id} {a : V} (A : w.Alike g φ v) (I : Inv w) (J : Inv v) (hx : x ∉ w.m.cons) (hx' : x' ∉ v.m.cons)
    (hh : Both w v i (fun c d => HintAlike φ c d hint hint')) (gw : Gained w w1 i hint x) (gv : Gained v v1 i hint' x') (h1 : w1.m.val x = a)
    (h2 : v1.m.val x' = a) (h3 : w1.m.cons = x :: w.m.cons) (h4 : v1.m.cons = x' :: v.m.cons) (h5 : w1.hs = w.hs) (h6 : v1.hs = v.hs) :
    w1.Alike g (upd φ x x') v1 := by
  have hψ : ∀ z ∈ w.m.cons, upd φ x x' z = φ z := fun z hz => upd_other _ _ (by rintro rfl; exact hx hz)
  have hψx : upd φ x x' x = x' := upd_same ..
  obtain ⟨k1, c, c1, o, hc, e⟩ := gw
  obtain ⟨k2, d, d1, o', hc', e'⟩ := gv
  refine A.put I o.pre o.cs o'.cs ?_ (fun z hz _ => hψ z hz) (fun z hz _ => k1 z hz) (fun z hz _ => k2 _ (A.node z hz)) ?_ ?_ ?_ ?_
  · exact gained_cont A I J hψ (by rw [hψx, h1, h2]) hh k1 k2 o o' hc hc' e (by rw [hψx]; exact e')
  · intro z hz
    rw [h3] at hz
    rcases List.mem_cons.1 hz with rfl | hz
    · rw [hψx, h1, h2]
    · rw [hψ z hz, k1 z hz, k2 _ (A.node z hz)]
      exact A.val z hz
  · intro z hz
    rw [h3] at hz
    rw [h4]
    rcases List.mem_cons.1 hz with rfl | hz
    · rw [hψx]; exact List.mem_cons_self ..
    · rw [hψ z hz]; exact List.mem_cons_of_mem _ (A.node z hz)
  · intro y hy z hz e
    rw [h3] at hy hz
    rcases List.mem_cons.1 hy with hy | hy <;> rcases List.mem_cons.1 hz with hz | hz
    · rw [hy, hz]
    · rw [hy, hψx, hψ z hz] at e
      exact absurd (e ▸ A.node z hz) hx'
    · rw [hz, hψx, hψ y hy] at e
      exact absurd (e ▸ A.node y hy) hx'
    · rw [hψ z hz, hψ y hy] at e
      exact A.inj y hy z hz e
  · rw [h5, h6, A.hs, hs_congr I hψ]

/-- `insert`, `emplace`. -/
theorem twin_insert {em : Bool} {a : V} {f f' : Fault} {hint hint' : Option Id} {e e' : Nat → Env} {r r' : Ret} (A : w.Alike g φ v) (I : Inv w) (J : Inv v)
    (hh : Both w v i (fun c d => HintAlike φ c d hint hint'))
    (l : w.Legal (if em then .emplace i a x f hint e else .insert i a x f hint e)) (l' : v.Legal (if em then .emplace i a x' f' hint' e' else .insert i a x' f' hint' e'))
    (s : w.step (if em then .emplace i a x f hint e else .insert i a x f hint e) = .ok (w1, r))
    (s' : v.step (if em then .emplace i a x' f' hint' e' else .insert i a x' f' hint' e') = .ok (v1, r')) : Outcome g (upd φ x x') w1 v1 r r' := by
  have fresh : ∀ {w : World V} (I : Inv w) {x : Id} {f : Fault} {hint : Option Id} {e : Nat → Env},
      w.Legal (if em then .emplace i a x f hint e else .insert i a x f hint e) → x ∉ w.m.cons := by
    intro w I x f hint e l
    cases em <;> exact fun k => l.choose_spec.2.1.2.1 (I.cons_sub k)
  have eff : ∀ {w w1 : World V} {r : Ret} (I : Inv w) {x : Id} {f : Fault} {hint : Option Id} {e : Nat → Env},
      w.Legal (if em then .emplace i a x f hint e else .insert i a x f hint e) →
      w.step (if em then .emplace i a x f hint e else .insert i a x f hint e) = .ok (w1, r) →
      (r = ⟨x, true⟩ ∧ Gained w w1 i hint x ∧ w1.m.val x = a ∧ w1.m.cons = x :: w.m.cons ∧ w1.hs = w.hs ∧ (∀ c, w.cs[i]? = some c → ¬ c.Bans w.m.val [] a)) ∨
      (r.b = false ∧ Unchanged w w1 i ∧ ∀ c, w.cs[i]? = some c → c.Bans w.m.val [] a) := by
    intro w w1 r I x f hint e l s
    have bans : ∀ {y : Id}, (∀ c, w.cs[i]? = some c → y ∈ c.elems ∧ ∃ S ∈ c.asked, S.unique = true ∧ S.equiv a (w.m.val y) = true) →
        ∀ c, w.cs[i]? = some c → c.Bans w.m.val [] a := fun h c hc => by
      obtain ⟨h1, S, h2, h3, h4⟩ := h c hc
      exact ⟨S, h2, h3, _, h1, by simp, h4⟩
    cases em with
    | true =>
      simp only [if_true] at l s
      rcases eff_emplace I l with ⟨w2, q, q1, q2, q3, q4, q5, q6, -⟩ | ⟨w2, y, q, q1, q2⟩ | ⟨w2, q, -⟩
      · rw [q] at s; cases s; exact Or.inl ⟨rfl, q1, q2, q4, q5, q6⟩
      · rw [q] at s; cases s; exact Or.inr ⟨rfl, q1, bans q2⟩
      · rw [q] at s; cases s
    | false =>
      simp only [Bool.false_eq_true, if_false] at l s
      rcases eff_insert I l with ⟨w2, q, q1, q2, q3, q4, q5, q6, -⟩ | ⟨w2, y, q, q1, q2⟩ | ⟨w2, q, -⟩
      · rw [q] at s; cases s; exact Or.inl ⟨rfl, q1, q2, q4, q5, q6⟩
      · rw [q] at s; cases s; exact Or.inr ⟨rfl, q1, bans q2⟩
      · rw [q] at s; cases s
  have hx := fresh I l
  have hx' := fresh J l'
  rcases eff I l s with ⟨rfl, q1, q2, q3, q4, q5⟩ | ⟨q0, q1, q2⟩
  · rcases eff J l' s' with ⟨rfl, p1, p2, p3, p4, p5⟩ | ⟨p0, p1, p2⟩
    · exact ⟨rfl, fun _ _ => (upd_same ..).symm, gained_like A I J hx hx' hh q1 p1 q2 p2 q3 p3 q4 p4⟩
    · exfalso
      obtain ⟨-, c, c1, o, -⟩ := q1
      obtain ⟨d, p⟩ := A.pair I J o.pre
      exact q5 c o.pre (p.bans.1 (p2 d p.hj))
  · rcases eff J l' s' with ⟨rfl, p1, p2, p3, p4, p5⟩ | ⟨p0, p1, p2⟩
    · exfalso
      obtain ⟨-, c, c1, o, -⟩ := q1
      obtain ⟨d, p⟩ := A.pair I J o.pre
      exact p5 d p.hj (p.bans.2 (q2 c o.pre))
    · exact ⟨by rw [q0, p0], (by rw [q0]; intro k; cases k), unchanged_like A I J (fun z hz => upd_other _ _ (by rintro rfl; exact hx hz)) q1 p1⟩

/-- Insertion of a handle. -/
theorem twin_insertNh {h : Nat} {hint hint' : Option Id} {e e' : Nat → Env} {r r' : Ret} (A : w.Alike g φ v) (I : Inv w) (J : Inv v)
    (hh : Both w v i (fun c d => HintAlike φ c d hint hint')) (l : w.Legal (.insertNh i h hint e)) (l' : v.Legal (.insertNh i h hint' e'))
    (s : w.step (.insertNh i h hint e) = .ok (w1, r)) (s' : v.step (.insertNh i h hint' e') = .ok (v1, r')) : Outcome g φ w1 v1 r r' := by
  obtain ⟨c, hi, hl, -⟩ := id l
  have hw : w.hs[h]? = some w.hs[h] := List.getElem?_eq_getElem hl
  generalize w.hs[h] = nh at hw
  have hv : v.hs[h]? = some (nh.map φ) := by rw [A.hs, List.getElem?_map, hw]; rfl
  obtain ⟨d, p⟩ := A.pair I J hi
  cases nh with
  | none =>
    have e1 : w.step (.insertNh i h hint e) = .ok (⟨w.m, w.cs.set i c, w.hs.set h none⟩, ⟨c.hd, false⟩) := by
      simp only [World.step, hi, hw, Container.insertNh]
    have e2 : v.step (.insertNh i h hint' e') = .ok (⟨v.m, v.cs.set i d, v.hs.set h none⟩, ⟨d.hd, false⟩) := by
      simp only [World.step, p.hj, hv, Container.insertNh, Option.map_none]
    rw [e1] at s
    rw [e2] at s'
    cases s; cases s'
    refine ⟨rfl, (fun k => nomatch k), ?_⟩
    refine A.put I hi rfl rfl p.like (fun _ _ _ => rfl) (fun _ _ _ => rfl) (fun _ _ _ => rfl) A.val A.node A.inj ?_
    show v.hs.set h none = (w.hs.set h none).map _
    rw [A.hs, List.map_set]
    rfl
  | some x =>
    have xc : x ∈ w.m.cons := I.handle_cons (mem_handled hw)
    have xc' : φ x ∈ v.m.cons := A.node x xc
    have eff : ∀ {w w1 : World V} {r : Ret} (I : Inv w) {x : Id} {hint : Option Id} {e : Nat → Env}, w.hs[h]? = some (some x) →
        w.Legal (.insertNh i h hint e) → w.step (.insertNh i h hint e) = .ok (w1, r) →
        (r = ⟨x, true⟩ ∧ Gained w w1 i hint x ∧ w1.m = w.m ∧ w1.hs = w.hs.set h none ∧ (∀ c, w.cs[i]? = some c → ¬ c.Bans w.m.val [] (w.m.val x))) ∨
        (r.b = false ∧ Unchanged w w1 i ∧ ∀ c, w.cs[i]? = some c → c.Bans w.m.val [] (w.m.val x)) := by
      intro w w1 r I x hint e hw l s
      rcases eff_insertNh I l hw with ⟨w2, q, q1, q2, q3, q4⟩ | ⟨w2, y, q, q1, q2, q3⟩ | ⟨w2, q, -⟩
      · rw [q] at s; cases s; exact Or.inl ⟨rfl, q1, q2, q3, q4⟩
      · rw [q] at s; cases s
        refine Or.inr ⟨rfl, q1, fun c hc => ?_⟩
        obtain ⟨h1, S, h2, h3, h4⟩ := q3 c hc
        exact ⟨S, h2, h3, _, h1, by simp, h4⟩
      · rw [q] at s; cases s
    have vx := A.val x xc
    rcases eff I hw l s with ⟨rfl, ⟨k1, c', c1, o, hc, ee⟩, q2, q3, q4⟩ | ⟨q0, q1, q2⟩
    · rcases eff J hv l' s' with ⟨rfl, ⟨k2, d', d1, o', hc', ee'⟩, p2, p3, p4⟩ | ⟨p0, p1, p2⟩
      · refine ⟨rfl, fun _ _ => rfl, ?_⟩
        have vm : w1.m.val = w.m.val := by rw [q2]
        have vm' : v1.m.val = v.m.val := by rw [p2]
        refine A.put I o.pre o.cs o'.cs ?_ (fun z hz _ => rfl) (fun z hz _ => k1 z hz) (fun z hz _ => k2 _ (A.node z hz)) ?_ ?_ ?_ ?_
        · exact gained_cont A I J (fun _ _ => rfl) (by rw [vm, vm', vx]) hh k1 k2 o o' hc hc' ee ee'
        · rw [q2, p2]; exact A.val
        · rw [q2, p2]; exact A.node
        · rw [q2]; exact A.inj
        · rw [q3, p3, A.hs, List.map_set]; rfl
      · exfalso
        exact q4 c hi (p.bans.1 (by rw [← vx]; exact p2 d p.hj))
    · rcases eff J hv l' s' with ⟨rfl, p1, p2, p3, p4⟩ | ⟨p0, p1, p2⟩
      · exfalso
        exact p4 d p.hj (p.bans.2 (by rw [vx]; exact q2 c hi))
      · refine ⟨by rw [q0, p0], (by rw [q0]; intro k; cases k), ?_⟩
        exact unchanged_like A I J (fun _ _ => rfl) q1 p1

end MI.Cont
