import Verif.Ser.DupLemmas
import Verif.Cont.ApiLemmas4

/-! What `save` writes, and what `load` makes of it. -/
namespace MI.Ser
open MI MI.Cont
variable {V : Type} {w : World V} {i : Nat} {c : Container V}

/-! ## Saving -/

/-- The pointers of indices with specifiers `Ss` and sequences `xss`, in an archive whose elements are `b`. -/
def Streams (val : Id → V) (b : List Id) : List (Spec V) → List (List Id) → List (Option Id) → Prop
  | [], [], ts => ts = []
  | S :: Ss, xs :: xss, ts =>
    if Rearranged S = true then
      ∃ o us, ts = saveFrom o ((listed val xs S).headD 0) 3 (listed val xs S) ++ us ∧ ((listed val xs S).filter o).Sublist b ∧ Streams val b Ss xss us
    else Streams val b Ss xss ts
  | _, _, _ => False

theorem listed_sublist (val : Id → V) (xs : List Id) (S : Spec V) : (listed val xs S).Sublist xs := by
  cases S with
  | ord u lt => exact List.filter_sublist
  | hash c eq hf => exact .refl _
  | seq => exact .refl _
  | rnd => exact .refl _

theorem saveIndices_spec {val : Id → V} {hd : Id} {b : List Id} {n : Nat} (hb : b.Nodup) (hn : b.length + 3 ≤ n) :
    ∀ {Ls : List (Layer V)} {xss : List (List Id)} {a : Alg}, OkAll (specs Ls) → Fit val hd b Ls xss → Ready a.begin b →
      ∃ ts, saveIndices n hd val a Ls = some ts ∧ Streams val b (specs Ls) xss ts
  | [], xss, a, _, f, _ => by rw [f.nil']; exact ⟨[], rfl, rfl⟩
  | L :: Ls, xss, a, ok, f, hr => by
    obtain ⟨xs, yss, rfl, h, p, f2⟩ := f.cases
    show ∃ ts, _ ∧ Streams val b (L.spec :: specs Ls) (xs :: yss) ts
    simp only [saveIndices, Streams]
    rw [hasStream_spec]
    cases hs : Rearranged L.spec with
    | false =>
      simp only [Bool.false_eq_true, if_false]
      exact saveIndices_spec hb hn ok.tail f2 hr
    | true =>
      simp only [if_true]
      have hl := listing_spec (n := n) ok.head h (by rw [p.length_eq]; exact hn) (by rw [hasStream_spec, hs])
      have sub := listed_sublist val xs L.spec
      obtain ⟨a', e1, e2, e3, e4, -⟩ := execute_spec (xs := listed val xs L.spec) hr hb (fun x hx => p.mem_iff.1 (sub.subset hx))
        ((p.nodup_iff.2 hb).sublist sub)
      obtain ⟨us, e5, e6⟩ := saveIndices_spec hb hn ok.tail f2 (begin_of_ready e2)
      have hall : ∀ x ∈ listed val xs L.spec, a'.isOrdered x ≠ none := by
        intro x hx
        obtain ⟨o, ho⟩ := e3 x (p.mem_iff.1 (sub.subset hx))
        rw [ho]
        exact fun h => nomatch h
      simp only [hl, Alg.save, e1, if_pos hall, e5]
      refine ⟨_, rfl, _, us, rfl, ?_, e6⟩
      have : (fun x => a'.isOrdered x == some true) = fun x => decide (a'.isOrdered x = some true) := by
        funext x
        cases a'.isOrdered x with
        | none => rfl
        | some o => cases o <;> rfl
      rw [this]
      exact e4

/-- What is in the archive. -/
theorem save_spec (r : Reach w) (hi : w.cs[i]? = some c) (junk : Alg) :
    ∃ ts, save w i junk = some ⟨c.count, c.elems.map w.m.val, ts.map (Option.map fun x => c.elems.idxOf x)⟩ ∧
      Streams w.m.val c.elems c.asked c.seqs ts := by
  have I := r.inv
  obtain ⟨hc, s, -⟩ := I.facts hi
  have h0 := seqs_head I hi
  obtain ⟨L, hL, h2, h3, h4, h5⟩ := I.seq hi h0
  have nd := (List.nodup_cons.1 (I.seq_nodup hi h0)).2
  obtain ⟨a, e1, e2⟩ := new_spec nd junk
  obtain ⟨ts, e3, e4⟩ := saveIndices_spec (n := c.budget) nd h4 s.ok s.fit e2
  refine ⟨ts, ?_, e4⟩
  unfold save
  simp only [hi]
  cases hls : c.ls with
  | nil => exact absurd hls s.ne
  | cons M ls =>
    rw [hls] at hL
    obtain rfl : M = L := by simpa using hL
    simp only [Layer.walk_spec h2 h4, s.count, e1]
    rw [hls] at e3
    simp only [e3]

/-! ## Loading the elements -/

theorem each_at {R : Spec V → List Id → List Id → Prop} : ∀ {Ss : List (Spec V)} {xss yss : List (List Id)}, Each R Ss xss yss →
    ∀ {k : Nat} {S : Spec V} {ys : List Id}, Ss[k]? = some S → yss[k]? = some ys → ∃ xs, xss[k]? = some xs ∧ R S xs ys
  | [], [], [], _, k, S, ys, h, _ => nomatch h
  | S :: Ss, xs :: xss, ys :: yss, r, 0, T, zs, h1, h2 => by
    cases h1; cases h2
    exact ⟨xs, rfl, r.1⟩
  | S :: Ss, xs :: xss, ys :: yss, r, k + 1, T, zs, h1, h2 => each_at (Ss := Ss) (xss := xss) (yss := yss) r.2 (k := k) h1 h2
  | [], [], _ :: _, r, _, _, _, _, _ => r.elim
  | [], _ :: _, _, r, _, _, _, _, _ => r.elim
  | _ :: _, [], _, r, _, _, _, _, _ => r.elim
  | _ :: _, _ :: _, [], r, _, _, _, _, _ => r.elim

/-- All indices have been filled with the elements of `es` in turn. -/
def PourAll (val : Id → V) (es : List Id) (Ss : List (Spec V)) (xss : List (List Id)) : Prop :=
  ∀ (k : Nat) S xs, Ss[k]? = some S → xss[k]? = some xs → Poured val es xs S

theorem poured_add {val : Id → V} {hd x : Id} {es xs xs' : List Id} {S : Spec V} (ok : S.Ok) (hhd : hd ∉ xs) (q : Poured val es xs S)
    (a : Added val (some hd) x S xs xs') : Poured val (es ++ [x]) xs' S := by
  obtain ⟨u, v, rfl, h2, h3⟩ := a
  cases S with
  | hash c eq hf => trivial
  | seq =>
    obtain rfl : v = [] := h3
    obtain rfl : u = xs := by simpa using (show u ++ [] = xs from h2)
    have q : u = es := q
    subst q
    rfl
  | rnd =>
    obtain rfl : v = [] := h3
    obtain rfl : u = xs := by simpa using (show u ++ [] = xs from h2)
    have q : u = es := q
    subst q
    rfl
  | ord un lt =>
    have sw := sw_val (lt := lt) ok val
    have h2 : u ++ v = xs := h2
    obtain ⟨h4, h5, -, h6⟩ := h3
    have hv : ∀ z ∈ v, lt (val x) (val z) = true := by
      obtain ⟨b, a, e, h7, h8⟩ := h6 hd rfl
      have ha : a = [] := by
        rcases h7 with h7 | ⟨h7, -⟩
        · exfalso
          apply hhd
          rw [← h2, e]
          cases a with
          | nil => exact nomatch h7
          | cons a0 a => cases h7; simp
        · exact h7
      subst ha
      rw [List.append_nil] at e
      rcases h8 with h8 | ⟨h8, -⟩ | ⟨-, h8⟩
      · have : v = [] := by
          rw [h8] at e
          simpa using e
        subst this
        exact fun z hz => nomatch hz
      · rw [← e] at h8
        simp at h8
      · exact h8
    intro y
    have q := q y
    rw [← h2, List.filter_append] at q
    rw [List.filter_append, List.filter_append, List.filter_cons, List.filter_cons, List.filter_nil, ← q]
    cases hyx : equivOf (fun a b => lt (val a) (val b)) y x with
    | false => simp
    | true =>
      have : v.filter (equivOf (fun a b => lt (val a) (val b)) y) = [] := by
        rw [List.filter_eq_nil_iff]
        intro z hz hyz
        have := sw.equiv_trans (by rw [StrictWeak.equiv_symm]; exact hyx) hyz
        simp [equivOf, hv z hz] at this
      simp [this]

theorem poured_congr {val val' : Id → V} {es xs : List Id} {S : Spec V} (h : ∀ z ∈ es, val' z = val z) (hp : xs.Perm es) (ok : S.Ok)
    (q : Poured val es xs S) : Poured val' es xs S := by
  cases S with
  | hash c eq hf => trivial
  | seq => exact q
  | rnd => exact q
  | ord un lt =>
    have sw : StrictWeak lt := ok
    intro y
    -- a class, seen from one of its elements
    have key : ∀ z ∈ es, equivOf (fun a b => lt (val' a) (val' b)) y z = true →
        ∀ u ∈ es, equivOf (fun a b => lt (val' a) (val' b)) y u = equivOf (fun a b => lt (val a) (val b)) z u := by
      intro z hz hyz u hu
      have e1 : equivOf (fun a b => lt (val a) (val b)) z u = equivOf (fun a b => lt (val' a) (val' b)) z u := by simp [equivOf, h z hz, h u hu]
      rw [e1]
      have sw' := sw_val (lt := lt) ok val'
      cases h1 : equivOf (fun a b => lt (val' a) (val' b)) z u with
      | true => exact sw'.equiv_trans hyz h1
      | false =>
        cases h2 : equivOf (fun a b => lt (val' a) (val' b)) y u with
        | false => rfl
        | true =>
          rw [sw'.equiv_trans (by rw [StrictWeak.equiv_symm]; exact hyz) h2] at h1
          exact h1
    by_cases hex : ∃ z ∈ es, equivOf (fun a b => lt (val' a) (val' b)) y z = true
    · obtain ⟨z, hz, hyz⟩ := hex
      rw [List.filter_congr (fun u hu => key z hz hyz u (hp.mem_iff.1 hu)), List.filter_congr (fun u hu => key z hz hyz u hu)]
      exact q z
    · have hnone : ∀ z ∈ es, ¬ equivOf (fun a b => lt (val' a) (val' b)) y z = true := fun z hz h => hex ⟨z, hz, h⟩
      rw [List.filter_eq_nil_iff.2 hnone, List.filter_eq_nil_iff.2 (fun z hz => hnone z (hp.mem_iff.1 hz))]

/-- How loading the elements ends. -/
theorem loadItems_spec {H : Host V} (ok : H.Ok) : ∀ (n : Nat) (vs : List V) {w : World V} {c : Container V} (es : List Id) (t : Nat), Reach w →
    w.cs[i]? = some c → c.elems.Perm es → PourAll w.m.val es c.asked c.seqs →
    ∃ w' c' es', OnlyAt w w' i c c' ∧ Reach w' ∧ w'.hs = w.hs ∧ (∀ z ∈ w.m.cons, z ∈ w'.m.cons ∧ w'.m.val z = w.m.val z) ∧
      ((loadItems H i c.hd n w vs es t = .ok (w', es') ∧ c'.elems.Perm es' ∧ PourAll w'.m.val es' c'.asked c'.seqs ∧
          n ≤ vs.length ∧ ∃ took, es' = es ++ took ∧ took.map w'.m.val = vs.take n) ∨
       (loadItems H i c.hd n w vs es t = .threw (w', es') ∧
          (¬ H.Calm ∨ vs.length < n ∨ ¬ (es.map w.m.val ++ vs.take n).Pairwise (fun a b => ¬ Clash c.asked b a))))
  | 0, vs, w, c, es, t, r, hi, hp, hq => by
    refine ⟨w, c, es, ⟨hi, (set_same hi).symm, rfl, rfl⟩, r, rfl, fun z hz => ⟨hz, rfl⟩, Or.inl ⟨rfl, hp, hq, Nat.zero_le _, [], by simp, by simp⟩⟩
  | n + 1, [], w, c, es, t, r, hi, hp, hq => by
    refine ⟨w, c, es, ⟨hi, (set_same hi).symm, rfl, rfl⟩, r, rfl, fun z hz => ⟨hz, rfl⟩, Or.inr ⟨rfl, Or.inr (Or.inl ?_)⟩⟩
    simp
  | n + 1, v :: vs, w, c, es, t, r, hi, hp, hq => by
    have I := r.inv
    obtain ⟨hc, s, cl, sa, sc, z0, h0⟩ := I.facts hi
    cases feed_step (em := false) (t := t) (v := v) (hint := some c.hd) ok r hi (fun p e => by cases e; simp) with
    | took w1 x c1 k1 r1 o hcnt ha hx hal hco hhs hval hcl =>
      have k1 : w.step (.insert i v (H.node w t) (H.fault w t) (some c.hd) (H.env w t)) = .ok (w1, ⟨x, true⟩) := k1
      have es_cons : ∀ z ∈ es, z ∈ w.m.cons := fun z hz => sc z (hp.mem_iff.2 hz)
      obtain ⟨S0, -, e0⟩ := each_head ha (asked_ne' I hi)
      have he1 : c1.elems.Perm (x :: c.elems) := e0.perm
      have hp1 : c1.elems.Perm (es ++ [x]) := he1.trans ((hp.cons x).trans (List.perm_append_singleton x es).symm)
      have hq1 : PourAll w1.m.val (es ++ [x]) c1.asked c1.seqs := by
        intro k S ys hS hys
        rw [o.asked] at hS
        obtain ⟨xs, hxs, a⟩ := each_at ha hS hys
        obtain ⟨L, hL, g2, g3, g4, g5⟩ := I.seq' hi hS hxs
        obtain ⟨-, -, -, g6, -⟩ := I.seq hi hxs
        refine poured_add g5 (List.nodup_cons.1 (I.seq_nodup hi hxs)).1 ?_ a
        exact poured_congr (fun z hz => hval z (es_cons z hz)) (g6.trans hp) g5 (hq k S xs hS hxs)
      obtain ⟨w', c', es', o', r', b1, b2, b3⟩ := loadItems_spec ok n vs (es ++ [x]) (t + 1) r1 o.post hp1 hq1
      have hstep : loadItems H i c.hd (n + 1) w (v :: vs) es t = loadItems H i c1.hd n w1 vs (es ++ [x]) (t + 1) := by
        simp only [loadItems, k1, if_true, o.hd]
      have hmap : (es ++ [x]).map w1.m.val = es.map w.m.val ++ [v] := by
        rw [List.map_append, List.map_congr_left (fun z hz => hval z (es_cons z hz))]
        simp [hx]
      refine ⟨w', c', es', o.trans o', r', b1.trans hhs, fun z hz => ?_, ?_⟩
      · have hz1 : z ∈ w1.m.cons := by rw [hco]; exact List.mem_cons_of_mem _ hz
        exact ⟨(b2 z hz1).1, (b2 z hz1).2.trans (hval z hz)⟩
      · rw [hstep]
        rcases b3 with ⟨q1, q2, q3, q4, took, q5, q6⟩ | ⟨q1, q2⟩
        · refine Or.inl ⟨q1, q2, q3, by simp; omega, x :: took, by simp [q5], ?_⟩
          rw [List.map_cons, q6, (b2 x (by rw [hco]; simp)).2, hx]
          simp
        · refine Or.inr ⟨q1, ?_⟩
          rw [hmap, o.asked] at q2
          rcases q2 with q2 | q2 | q2
          · exact Or.inl q2
          · exact Or.inr (Or.inl (by simp; omega))
          · exact Or.inr (Or.inr (by simpa using q2))
    | left w1 y c1 k1 r1 o hcnt ha sm hy hcl =>
      have k1 : w.step (.insert i v (H.node w t) (H.fault w t) (some c.hd) (H.env w t)) = .ok (w1, ⟨y, false⟩) := k1
      refine ⟨w1, c1, es, o, r1, sm.hs, fun z hz => ⟨by rw [sm.cons]; exact hz, sm.val z hz⟩, Or.inr ⟨by simp [loadItems, k1], Or.inr (Or.inr ?_)⟩⟩
      intro hpw
      have := (List.pairwise_append.1 hpw).2.2 (w.m.val y) (List.mem_map_of_mem (hp.mem_iff.1 hy)) v (by simp)
      exact this hcl
    | threw w1 c1 ret k1 r1 o hcnt ha sm hcalm =>
      have k1 : w.step (.insert i v (H.node w t) (H.fault w t) (some c.hd) (H.env w t)) = .threw (w1, ret) := k1
      exact ⟨w1, c1, es, o, r1, sm.hs, fun z hz => ⟨by rw [sm.cons]; exact hz, sm.val z hz⟩, Or.inr ⟨by simp only [loadItems, k1], Or.inl hcalm⟩⟩

end MI.Ser
