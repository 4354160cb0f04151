import Verif.Ser.RoundTrip

/-! Saving and loading together. -/
namespace MI.Ser
open MI MI.Cont
variable {V : Type} {w : World V} {i : Nat} {c : Container V}

theorem no_clash (r : Reach w) (hi : w.cs[i]? = some c) : (c.elems.map w.m.val).Pairwise (fun a b => ¬ Clash c.asked b a) := by
  rw [List.pairwise_map]
  refine List.Pairwise.imp_of_mem (R := fun a b => a ≠ b) ?_ (List.nodup_cons.1 (r.inv.facts hi).2.1.nodup).2
  rintro a b ha hb hab ⟨S, hS, hu, he⟩
  obtain ⟨k, hk⟩ := List.mem_iff_getElem?.1 hS
  have hk' : k < c.seqs.length := by
    have := (List.getElem?_eq_some_iff.1 hk).1
    simpa [Container.asked, Container.seqs] using this
  obtain ⟨L, hL, g2, g3, g4, g5⟩ := r.inv.seq' hi hk (List.getElem?_eq_getElem hk')
  obtain ⟨-, -, -, p, -⟩ := r.inv.seq hi (List.getElem?_eq_getElem hk')
  have g := g2.good (by rw [g4]; exact g5)
  rw [g4] at g
  have := good_unique g5 hu g b (p.mem_iff.2 hb) a (p.mem_iff.2 ha) hab.symm
  rw [he] at this
  exact nomatch this

theorem map_getD_idxOf {es b : List Id} {hd : Id} (hn : b.Nodup) (hl : es.length = b.length) :
    b.map (fun x => es.getD (b.idxOf x) hd) = es := by
  refine List.ext_getElem (by simp [hl]) fun n h1 h2 => ?_
  have hb : n < b.length := by simpa using h1
  rw [List.getElem_map, hn.idxOf_getElem n hb]
  simp [h2]

theorem load_back {H : Host V} (r : Reach w) (hi : w.cs[i]? = some c) {junk : Alg} {A : Archive V} (hA : save w i junk = some A)
    {w' : World V} {j : Nat} {d : Container V} (r' : Reach w') (hj : w'.cs[j]? = some d) (ha : d.asked = c.asked) (ok : H.Ok) (calm : H.Calm) :
    ∃ w'' d' f, load H {} w' j A = .ok w'' ∧ Reach w'' ∧ OnlyAt w' w'' j d d' ∧ w''.hs = w'.hs ∧
      (∀ z ∈ w'.m.cons, z ∉ d.elems → z ∈ w''.m.cons ∧ w''.m.val z = w'.m.val z) ∧
      Twin w.m.val w''.m.val c.elems (c.elems.map f) f ∧ d'.elems.Perm (c.elems.map f) ∧
      (∃ es, loadT H {} w' j A = .ok (w'', es) ∧ es.length = c.elems.length ∧ ∀ x ∈ c.elems, f x = es.getD (c.elems.idxOf x) 0) ∧
      ∀ (k : Nat) S X ys, c.asked[k]? = some S → c.seqs[k]? = some X → d'.seqs[k]? = some ys → Back f X ys S := by
  have I := r.inv
  obtain ⟨-, s, -⟩ := I.facts hi
  have hnc := no_clash r hi
  obtain ⟨ts, hts, hst⟩ := save_spec r hi junk
  obtain rfl := Option.some.inj (hts.symm.trans hA)
  have l : w'.Legal (.clear j) := (List.getElem?_eq_some_iff.1 hj).1
  obtain ⟨w1, c0, c1, k1, o1, em, k2, k3⟩ := eff_clear r'.inv l
  obtain rfl := Option.some.inj (o1.pre.symm.trans hj)
  have r1 : Reach w1 := r'.ok l k1
  have he : c1.elems = [] := by
    have := (r1.inv.facts o1.post).2.1.count
    rw [k2] at this
    exact List.length_eq_zero_iff.1 this.symm
  have hq : PourAll w1.m.val [] c1.asked c1.seqs := by
    intro k S xs hS hxs
    have : xs = [] := k3 xs (List.mem_of_getElem? hxs)
    subst this
    cases S with
    | ord u lt => exact fun _ => rfl
    | hash c eq hf => trivial
    | seq => rfl
    | rnd => rfl
  obtain ⟨w2, c2, es, o2, r2, b1, b2, b3⟩ := loadItems_spec (i := j) ok c.count (c.elems.map w.m.val) [] 0 r1 o1.post (by rw [he]) hq
  have hcl : (c.elems.map w.m.val).length = c.count := by simp [s.count]
  rcases b3 with ⟨q1, q2, q3, q4, took, q5, q6⟩ | ⟨-, h | h | h⟩
  · rw [List.nil_append] at q5
    subst q5
    rw [← hcl, List.take_length] at q6
    have hlen : es.length = c.elems.length := by simpa using congrArg List.length q6
    obtain ⟨f, hf⟩ : ∃ f : Id → Id, f = fun x => es.getD (c.elems.idxOf x) c1.hd := ⟨_, rfl⟩
    have hmap : c.elems.map f = es := by rw [hf]; exact map_getD_idxOf (List.nodup_cons.1 s.nodup).2 hlen
    have t : Twin w.m.val w2.m.val c.elems es f := by
      refine ⟨hmap, (List.nodup_cons.1 s.nodup).2, q2.nodup_iff.1 (List.nodup_cons.1 (r2.inv.facts o2.post).2.1.nodup).2, ?_⟩
      rw [← hmap, List.map_map] at q6
      intro x hx
      exact (List.map_inj_left.1 q6 x hx)
    have hl2 : c2.ls.length = c1.ls.length := by
      have := congrArg List.length o2.asked
      simpa [Container.asked] using this
    have hasked : c2.asked = c.asked := o2.asked.trans (o1.asked.trans ha)
    obtain ⟨w3, d', z1, z2, z3, z4, z5, z6, z7, z8⟩ := loadIndices_restore (i := j) (val := w.m.val) (b := c.elems) (es := es) (f := f) (xss := c.seqs)
      (fun X hX => by
        obtain ⟨k, hk⟩ := List.mem_iff_getElem?.1 hX
        obtain ⟨-, -, -, p, -⟩ := I.seq hi hk
        exact p)
      c1.ls.length 0 ts r2 o2.post q2 (by omega) t (by
        intro k S X hS hX
        rw [hasked] at hS
        obtain ⟨L, hL, g2, g3, g4, g5⟩ := I.seq' hi hS hX
        rw [← g4]; exact g2.good (by rw [g4]; exact g5)) (by rw [hasked]; exact hst) (fun k S ys _ hS hys => q3 k S ys hS hys)
    have lt : loadT H {} w' j ⟨c.count, c.elems.map w.m.val, ts.map (Option.map fun x => c.elems.idxOf x)⟩ = .ok (w3, es) := by
      unfold loadT
      simp only [k1, o1.post, q1]
      have e : (ts.map (Option.map fun x => c.elems.idxOf x)).map (Option.map fun n => es.getD n c1.hd) = ts.map (Option.map f) := by
        rw [List.map_map]
        refine List.map_congr_left fun o _ => ?_
        cases o <;> simp [hf]
      rw [e, z1]
    refine ⟨w3, d', f, ?_, z2, (o1.trans o2).trans z3, z5.trans (b1.trans em.2.2.2), ?_, ?_, by rw [hmap]; exact z6, ⟨es, lt, hlen, ?_⟩, ?_⟩
    · rw [loadT_load, lt]
    · intro z hz hz'
      rw [z4]
      have := b2 z ((em.1 z).2 ⟨hz, hz'⟩)
      exact ⟨this.1, this.2.trans (by rw [em.2.2.1])⟩
    · rw [z4, hmap]
      exact t
    · intro x hx
      have : c.elems.idxOf x < es.length := by rw [hlen]; exact List.idxOf_lt_length_iff.2 hx
      rw [hf]
      simp [List.getD_eq_getElem?_getD, this]
    · intro k S X ys hS hX hys
      exact z8 k S X ys (Nat.zero_le _) (by rw [hasked]; exact hS) hX hys
  · exact (h calm).elim
  · omega
  · rw [o1.asked, ha, ← hcl, List.take_length, List.map_nil, List.nil_append] at h
    exact (h hnc).elim

end MI.Ser
