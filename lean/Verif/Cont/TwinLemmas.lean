import Verif.Cont.Twin
import Verif.Cont.EffectLemmas2
import Verif.Cont.ListLemmas
/-!
One index of two programs that look alike.
-/
set_option linter.unusedVariables false
set_option linter.unusedSimpArgs false
namespace MI.Cont
open MI
variable {V : Type} {g : Prop} {φ ψ : Id → Id} {val val' : Id → V} {S : Spec V} {xs ys xs1 ys1 : List Id} {x x' : Id}

theorem map_erase_nodup : ∀ {xs : List Id}, (xs.map φ).Nodup → x ∈ xs → (xs.map φ).erase (φ x) = (xs.erase x).map φ
  | [], _, h => nomatch h
  | a :: xs, nd, h => by
    rw [List.map_cons, List.nodup_cons] at nd
    by_cases e : a = x
    · subst e; simp
    · have hx : x ∈ xs := by
        rcases List.mem_cons.1 h with rfl | h
        · exact absurd rfl e
        · exact h
      have hn : φ a ≠ φ x := fun k => nd.1 (by rw [k]; exact List.mem_map_of_mem hx)
      rw [List.map_cons, List.erase_cons_tail (by simpa using hn), List.erase_cons_tail (by simpa using e), List.map_cons, map_erase_nodup nd.2 hx]

theorem filter_erase_nodup {p : Id → Bool} (nd : xs.Nodup) (x : Id) : (xs.erase x).filter p = (xs.filter p).erase x := by
  rw [nd.erase_eq_filter, (nd.filter _).erase_eq_filter, List.filter_filter, List.filter_filter]
  congr 1
  funext a
  exact Bool.and_comm _ _

theorem map_upd (h : x ∉ xs) : xs.map (upd φ x x') = xs.map φ :=
  List.map_congr_left fun a ha => upd_other _ _ (by rintro rfl; exact h ha)

theorem Spec.Alike.perm (h : S.Alike g φ val val' xs ys) : ys.Perm (xs.map φ) := by
  cases S with
  | hash => exact h.1
  | _ => exact List.Perm.of_eq h

theorem Spec.Alike.congr {val1 val1' : Id → V} (h : S.Alike g φ val val' xs ys) (hφ : ∀ a ∈ xs, ψ a = φ a) (hv : ∀ a ∈ xs, val1 a = val a)
    (hv' : ∀ a ∈ xs, val1' (φ a) = val' (φ a)) : S.Alike g ψ val1 val1' xs ys := by
  have e : ∀ {l : List Id}, (∀ a ∈ l, a ∈ xs) → l.map ψ = l.map φ := fun hl => List.map_congr_left fun a ha => hφ a (hl a ha)
  cases S with
  | hash n eq hf =>
    refine ⟨by rw [e fun _ h => h]; exact h.1, fun k a => ?_⟩
    rw [e fun a ha => List.mem_of_mem_filter ha]
    have h1 : xs.filter (fun z => eq a (val1 z)) = xs.filter (fun z => eq a (val z)) := List.filter_congr fun z hz => by rw [hv z hz]
    have h2 : ys.filter (fun z => eq a (val1' z)) = ys.filter (fun z => eq a (val' z)) := List.filter_congr fun z hz => by
      obtain ⟨y, hy, rfl⟩ := List.mem_map.1 (h.1.mem_iff.1 hz)
      rw [hv' y hy]
    rw [h1, h2]
    exact h.2 k a
  | ord => exact Eq.trans h (e fun _ h => h).symm
  | seq => exact Eq.trans h (e fun _ h => h).symm
  | rnd => exact Eq.trans h (e fun _ h => h).symm

/-- Rehashing keeps the order of the elements with a given key. -/
theorem same_all {n : Hash.Cat} {eq : V → V → Bool} {hf : V → Nat} (ok : EqHash eq hf) (s : (Spec.hash n eq hf).Same val xs ys) (a : V) :
    ys.filter (fun z => eq a (val z)) = xs.filter (fun z => eq a (val z)) := by
  by_cases k : ∃ y ∈ xs, eq a (val y) = true
  · obtain ⟨y, hy, e⟩ := k
    have : (fun z => eq a (val z)) = fun z => eq (val y) (val z) := by
      funext z
      exact Bool.eq_iff_iff.2 ⟨fun q => ok.trans (ok.symm e) q, fun q => ok.trans e q⟩
    rw [this]
    exact s.2 y hy
  · have h1 : xs.filter (fun z => eq a (val z)) = [] := List.filter_eq_nil_iff.2 fun z hz q => k ⟨z, hz, q⟩
    have h2 : ys.filter (fun z => eq a (val z)) = [] := List.filter_eq_nil_iff.2 fun z hz q => k ⟨z, s.1.mem_iff.1 hz, q⟩
    rw [h1, h2]

theorem Spec.Alike.same (ok : S.Ok) (h : S.Alike g φ val val' xs ys) (s : S.Same val xs xs1) (s' : S.Same val' ys ys1) : S.Alike g φ val val' xs1 ys1 := by
  cases S with
  | hash n eq hf =>
    refine ⟨s'.1.trans (h.1.trans (s.1.symm.map _)), fun k a => ?_⟩
    rw [same_all ok s', same_all ok s]
    exact h.2 k a
  | ord => rw [show xs1 = xs from s, show ys1 = ys from s']; exact h
  | seq => rw [show xs1 = xs from s, show ys1 = ys from s']; exact h
  | rnd => rw [show xs1 = xs from s, show ys1 = ys from s']; exact h

theorem Spec.Alike.erase (h : S.Alike g φ val val' xs ys) (nd : xs.Nodup) (nd' : ys.Nodup) (hx : x ∈ xs) : S.Alike g φ val val' (xs.erase x) (ys.erase (φ x)) := by
  have md : (xs.map φ).Nodup := h.perm.nodup_iff.1 nd'
  cases S with
  | hash n eq hf =>
    refine ⟨by rw [← map_erase_nodup md hx]; exact h.1.erase _, fun k a => ?_⟩
    rw [filter_erase_nodup nd', filter_erase_nodup nd, h.2 k a]
    by_cases q : x ∈ xs.filter (fun z => eq a (val z))
    · exact map_erase_nodup (List.Nodup.sublist (List.Sublist.map _ List.filter_sublist) md) q
    · rw [List.erase_of_not_mem q, List.erase_of_not_mem]
      intro q'
      obtain ⟨y, hy, e⟩ := List.mem_map.1 q'
      have : y = x := List.inj_on_of_nodup_map md (List.mem_of_mem_filter hy) hx e
      exact q (this ▸ hy)
  | ord => rw [show ys = xs.map φ from h]; exact map_erase_nodup md hx
  | seq => rw [show ys = xs.map φ from h]; exact map_erase_nodup md hx
  | rnd => rw [show ys = xs.map φ from h]; exact map_erase_nodup md hx

/-- Where an ordered index puts an element is determined. -/
theorem where_unique {un : Bool} {lt : V → V → Bool} {hint : Option Id} {u v u' v' : List Id} (nd : (u ++ v).Nodup) (e : u ++ v = u' ++ v')
    (h : (Spec.ord un lt).Where val hint x u v) (h' : (Spec.ord un lt).Where val hint x u' v') : u = u' ∧ v = v' := by
  have key : ∀ {u v u' v' : List Id}, (u ++ v).Nodup → (Spec.ord un lt).Where val hint x u v → (Spec.ord un lt).Where val hint x u' v' →
      ∀ m, u' = u ++ m → v = m ++ v' → m = [] := by
    intro u v u' v' nd h h' m e1 e2
    cases m with
    | nil => rfl
    | cons z m =>
      exfalso
      have z1 : z ∈ u' := by rw [e1]; simp
      have z2 : z ∈ v := by rw [e2]; simp
      obtain ⟨a1, a2, a3, a4⟩ := h
      obtain ⟨b1, b2, b3, b4⟩ := h'
      cases hint with
      | none =>
        have := a3 rfl z z2
        rw [b1 z z1] at this
        cases this
      | some p =>
        obtain ⟨b, a, p1, p2, p3⟩ := a4 p rfl
        obtain ⟨b', a', q1, q2, q3⟩ := b4 p rfl
        have ee : b ++ a = b' ++ a' := by rw [← p1, ← q1, e1, e2]; simp
        have nd2 : (b ++ a).Nodup := by rw [← p1]; exact nd
        have hb : b = b' := by
          have p2' : a.headD p = p := by
            rcases p2 with k | ⟨k, -⟩
            · cases a with
              | nil => cases k
              | cons y a => simpa using k
            · rw [k]; rfl
          have q2' : a'.headD p = p := by
            rcases q2 with k | ⟨k, -⟩
            · cases a' with
              | nil => cases k
              | cons y a => simpa using k
            · rw [k]; rfl
          rcases p2 with k | ⟨k, kn⟩
          · obtain ⟨a2, rfl⟩ : ∃ a2, a = p :: a2 := by
              cases a with
              | nil => cases k
              | cons y a => exact ⟨a, by simp at k; rw [k]⟩
            rcases q2 with q | ⟨q, qn⟩
            · obtain ⟨a2', rfl⟩ : ∃ a2, a' = p :: a2 := by
                cases a' with
                | nil => cases q
                | cons y a => exact ⟨a, by simp at q; rw [q]⟩
              rcases List.append_eq_append_iff.1 ee with ⟨m, f1, f2⟩ | ⟨m, f1, f2⟩
              · cases m with
                | nil => simpa using f1.symm
                | cons y m =>
                  simp at f2
                  rw [f2.2] at nd2
                  simp [List.nodup_append] at nd2
              · cases m with
                | nil => simpa using f1
                | cons y m =>
                  simp at f2
                  rw [f1, ← f2.1] at nd2
                  simp [List.nodup_append] at nd2
            · subst q
              exfalso
              apply qn
              have : p ∈ b' ++ [] := by rw [← ee]; simp
              simpa using this
          · subst k
            rcases q2 with q | ⟨q, qn⟩
            · exfalso
              apply kn
              have : p ∈ b ++ [] := by
                rw [ee]
                cases a' with
                | nil => cases q
                | cons y a => simp at q; simp [q]
              simpa using this
            · subst q
              simpa using ee
        subst hb
        have no1 : ¬ ∀ c ∈ u', lt (val c) (val x) = true := fun k => by
          have := a2 z z2
          rw [k z z1] at this
          cases this
        have no2 : ¬ ∀ c ∈ v, lt (val x) (val c) = true := fun k => by
          have := b1 z z1
          rw [k z z2] at this
          cases this
        have hl : u.length < u'.length := by rw [e1]; simp
        rcases p3 with p3 | p3 | p3
        · rcases q3 with q3 | q3 | q3
          · rw [p3, q3] at hl; omega
          · exact no1 q3.2
          · rw [p3] at hl; omega
        · rcases q3 with q3 | q3 | q3
          · rw [q3] at hl; omega
          · exact no1 q3.2
          · omega
        · exact no2 p3.2
  rcases List.append_eq_append_iff.1 e with ⟨m, e1, e2⟩ | ⟨m, e1, e2⟩
  · have := key nd h h' m e1 e2
    subst this
    simp at e1 e2
    exact ⟨e1.symm, e2⟩
  · have := key (by rw [← e]; exact nd) h' h m e1 e2
    subst this
    simp at e1 e2
    exact ⟨e1, e2.symm⟩

/-- How hints correspond, as far as one sequence can tell. -/
def HintMaps (φ : Id → Id) (xs ys : List Id) : Option Id → Option Id → Prop
  | none, none => True
  | some p, some q => (p ∉ xs ∧ q ∉ ys) ∨ (p ∈ xs ∧ q = φ p)
  | _, _ => False

theorem where_map {un : Bool} {lt : V → V → Bool} {hint hint' : Option Id} {u v : List Id} (hv : ∀ a ∈ x :: (u ++ v), val' (φ a) = val a)
    (hh : HintMaps φ (u ++ v) ((u ++ v).map φ) hint hint') (h : (Spec.ord un lt).Where val hint x u v) :
    (Spec.ord un lt).Where val' hint' (φ x) (u.map φ) (v.map φ) := by
  have hx : val' (φ x) = val x := hv x (by simp)
  have hu : ∀ a ∈ u, val' (φ a) = val a := fun a ha => hv a (by simp [ha])
  have hw : ∀ a ∈ v, val' (φ a) = val a := fun a ha => hv a (by simp [ha])
  obtain ⟨h1, h2, h3, h4⟩ := h
  refine ⟨?_, ?_, ?_, ?_⟩
  · intro a ha
    obtain ⟨b, hb, rfl⟩ := List.mem_map.1 ha
    rw [hx, hu b hb]; exact h1 b hb
  · intro a ha
    obtain ⟨b, hb, rfl⟩ := List.mem_map.1 ha
    rw [hx, hw b hb]; exact h2 b hb
  · rintro rfl a ha
    obtain ⟨b, hb, rfl⟩ := List.mem_map.1 ha
    rw [hx, hw b hb]
    cases hint with
    | none => exact h3 rfl b hb
    | some p => exact hh.elim
  · rintro q rfl
    cases hint with
    | none => exact hh.elim
    | some p =>
      obtain ⟨b, a, e, bt, k⟩ := h4 p rfl
      refine ⟨b.map φ, a.map φ, by rw [← List.map_append, e, List.map_append], ?_, ?_⟩
      · rcases hh with ⟨n1, n2⟩ | ⟨m1, rfl⟩
        · right
          rcases bt with bt | bt
          · exact absurd (by rw [e]; cases a with
              | nil => cases bt
              | cons y a => simp at bt; simp [bt]) n1
          · rw [bt.1]
            refine ⟨rfl, fun k => n2 ?_⟩
            rw [e, List.map_append]
            simp only [List.mem_append]
            exact Or.inl k
        · left
          rcases bt with bt | bt
          · cases a with
            | nil => cases bt
            | cons y a => simp at bt; simp [bt]
          · rw [e, bt.1] at m1
            exact absurd (by simpa using m1) bt.2
      · rcases k with k | ⟨k, k'⟩ | ⟨k, k'⟩
        · exact Or.inl (by rw [k])
        · refine Or.inr (Or.inl ⟨by simpa using k, fun c hc => ?_⟩)
          obtain ⟨d, hd, rfl⟩ := List.mem_map.1 hc
          rw [hx, hu d hd]; exact k' d hd
        · refine Or.inr (Or.inr ⟨by simpa using k, fun c hc => ?_⟩)
          obtain ⟨d, hd, rfl⟩ := List.mem_map.1 hc
          rw [hx, hw d hd]; exact k' d hd

theorem filter_front {p : Id → Bool} {u v : List Id} (h : p x = true → ∀ a ∈ u, p a = false) :
    (u ++ x :: v).filter p = (if p x then [x] else []) ++ (u ++ v).filter p := by
  cases k : p x with
  | true =>
    have : u.filter p = [] := List.filter_eq_nil_iff.2 fun a ha => by simp [h k a ha]
    simp [List.filter_append, this, k]
  | false => simp [List.filter_append, k]

/-- Insertion. -/
theorem Spec.Alike.added {hint hint' : Option Id} (ok : S.Ok) (h : S.Alike g φ val val' xs ys) (nd' : ys.Nodup) (hv : ∀ a ∈ x :: xs, val' (φ a) = val a)
    (hh : HintMaps φ xs ys hint hint') (a : Added val hint x S xs xs1) (a' : Added val' hint' (φ x) S ys ys1) :
    S.Alike g φ val val' xs1 ys1 := by
  obtain ⟨u, v, rfl, s, wh⟩ := a
  obtain ⟨u', v', rfl, s', wh'⟩ := a'
  cases S with
  | hash n eq hf =>
    have eh : EqHash eq hf := ok
    have b : (Spec.hash n eq hf).Alike g φ val val' (u ++ v) (u' ++ v') := h.same ok s s'
    refine ⟨?_, fun k a => ?_⟩
    · refine List.perm_middle.trans ?_
      refine ((List.Perm.cons _ b.1).trans ?_)
      rw [← List.map_cons]
      exact List.perm_middle.symm.map _
    · have hx : val' (φ x) = val x := hv x (by simp)
      rw [filter_front (u := u') (fun q z hz => ?_), filter_front (u := u) (fun q z hz => ?_), b.2 k a, hx, List.map_append]
      · split <;> rfl
      · have := wh z hz
        by_contra q2
        have q2 : eq a (val z) = true := by simpa using q2
        rw [eh.trans (eh.symm q) q2] at this
        cases this
      · have := wh' z hz
        by_contra q2
        have q2 : eq a (val' z) = true := by simpa using q2
        rw [eh.trans (eh.symm q) q2] at this
        cases this
  | ord un lt =>
    have e1 : u ++ v = xs := s
    have e2 : u' ++ v' = ys := s'
    have e3 : ys = xs.map φ := h
    subst e1
    rw [e3] at e2 hh nd'
    have w2 := where_map hv hh wh
    obtain ⟨rfl, rfl⟩ := where_unique (by rw [e2]; exact nd') (by rw [e2, List.map_append]) wh' w2
    show _ = _
    simp
  | seq =>
    have e1 : u ++ v = xs := s
    have e2 : u' ++ v' = ys := s'
    have e3 : ys = xs.map φ := h
    rw [show v = [] from wh, List.append_nil] at e1
    rw [show v' = [] from wh', List.append_nil] at e2
    rw [show v = [] from wh, show v' = [] from wh', e2, e3, e1]
    show _ = _
    simp
  | rnd =>
    have e1 : u ++ v = xs := s
    have e2 : u' ++ v' = ys := s'
    have e3 : ys = xs.map φ := h
    rw [show v = [] from wh, List.append_nil] at e1
    rw [show v' = [] from wh', List.append_nil] at e2
    rw [show v = [] from wh, show v' = [] from wh', e2, e3, e1]
    show _ = _
    simp

theorem good_map {un : Bool} {lt : V → V → Bool} (hv : ∀ a ∈ xs, val' (φ a) = val a) :
    (Spec.ord un lt).Good val' (xs.map φ) ↔ (Spec.ord un lt).Good val xs := by
  cases un with
  | true =>
    show (xs.map φ).Pairwise _ ↔ xs.Pairwise _
    rw [List.pairwise_map]
    constructor
    · intro h; exact h.imp_of_mem fun ha hb k => by rw [hv _ ha, hv _ hb] at k; exact k
    · intro h; exact h.imp_of_mem fun ha hb k => by rw [hv _ ha, hv _ hb]; exact k
  | false =>
    show Sorted _ (xs.map φ) ↔ Sorted _ xs
    unfold Sorted
    rw [List.pairwise_map]
    constructor
    · intro h; exact h.imp_of_mem fun ha hb k => by have k : lt (val' (φ _)) (val' (φ _)) = false := k; rw [hv _ ha, hv _ hb] at k; exact k
    · intro h; exact h.imp_of_mem fun ha hb k => by show lt (val' (φ _)) (val' (φ _)) = false; rw [hv _ ha, hv _ hb]; exact k

/-- A change of value: `val`, `val'` are the new values, `val0`, `val0'` the old ones. -/
theorem Spec.Alike.moved {val0 val0' : Id → V} (ok : S.Ok) (h : S.Alike g φ val0 val0' xs ys) (nd : xs.Nodup) (nd' : ys.Nodup) (hx : x ∈ xs)
    (hv : ∀ a ∈ xs, val' (φ a) = val a) (o : ∀ a, a ≠ x → val a = val0 a) (o' : ∀ a, a ≠ φ x → val' a = val0' a)
    (h0 : val0' (φ x) = val0 x)
    (hk : g → ∀ n eq hf, S = .hash n eq hf → eq (val x) (val0 x) = true)
    (a : Moved (val0 x) val x S xs xs1) (a' : Moved (val0' (φ x)) val' (φ x) S ys ys1) : S.Alike g φ val val' xs1 ys1 := by
  have md : (xs.map φ).Nodup := h.perm.nodup_iff.1 nd'
  obtain ⟨u, v, e, rfl, m⟩ := a
  obtain ⟨u', v', e', rfl, m'⟩ := a'
  have py : φ x ∈ ys := h.perm.mem_iff.2 (List.mem_map_of_mem hx)
  have p1 : (u ++ x :: v).Perm xs := (List.perm_middle.trans (List.Perm.cons _ (by rw [← e]))).trans (List.perm_cons_erase hx).symm
  have p2 : (u' ++ φ x :: v').Perm ys := (List.perm_middle.trans (List.Perm.cons _ (by rw [← e']))).trans (List.perm_cons_erase py).symm
  cases S with
  | hash n eq hf =>
    have eh : EqHash eq hf := ok
    refine ⟨p2.trans (h.1.trans (p1.symm.map _)), fun k a => ?_⟩
    have kx := hk k n eq hf rfl
    have kx' : eq (val' (φ x)) (val0' (φ x)) = true := by rw [hv x hx, h0]; exact kx
    have m := m kx
    have m' := m' kx'
    rw [m, m']
    have f1 : xs.filter (fun z => eq a (val z)) = xs.filter (fun z => eq a (val0 z)) := List.filter_congr fun z hz => by
      by_cases q : z = x
      · subst q
        exact Bool.eq_iff_iff.2 ⟨fun r => eh.trans r kx, fun r => eh.trans r (eh.symm kx)⟩
      · rw [o z q]
    have f2 : ys.filter (fun z => eq a (val' z)) = ys.filter (fun z => eq a (val0' z)) := List.filter_congr fun z hz => by
      by_cases q : z = φ x
      · subst q
        exact Bool.eq_iff_iff.2 ⟨fun r => eh.trans r kx', fun r => eh.trans r (eh.symm kx')⟩
      · rw [o' z q]
    rw [f1, f2]
    exact h.2 k a
  | ord un lt =>
    have e3 : ys = xs.map φ := h
    subst e3
    have gm := good_map (un := un) (lt := lt) hv
    by_cases q : (Spec.ord un lt).Good val xs
    · rw [m.1 q, m'.1 (gm.2 q)]
      rfl
    · have w1 := m.2 q
      have w2 := m'.2 (fun k => q (gm.1 k))
      have w3 := where_map (φ := φ) (val' := val') (hint := none) (hint' := none) (fun a ha => hv a (p1.mem_iff.1 (by
        simp only [List.mem_cons, List.mem_append] at ha ⊢; tauto))) trivial w1
      have ee : u' ++ v' = u.map φ ++ v.map φ := by rw [← e', map_erase_nodup md hx, e, List.map_append]
      obtain ⟨rfl, rfl⟩ := where_unique (by rw [← e']; exact md.erase _) ee w2 w3
      show _ = _
      simp
  | seq => rw [show u ++ x :: v = xs from m, show u' ++ φ x :: v' = ys from m']; exact h
  | rnd => rw [show u ++ x :: v = xs from m, show u' ++ φ x :: v' = ys from m']; exact h

end MI.Cont
