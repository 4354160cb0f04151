import Verif.Cont.Ideal
import Verif.Cont.TwinStep
/-!
One index, or one container, and its ideal.
-/
set_option linter.unusedVariables false
set_option linter.unusedSimpArgs false
namespace MI.Cont
open MI
variable {V : Type}

/-- `y` is an element that forbids the insertion of `v`, because of the first index that has one. -/
def First (Ss : List (Spec V)) (val : Id → V) (els : List Id) (v : V) (y : Id) : Prop :=
  ∃ pre S post, Ss = pre ++ S :: post ∧ S.unique = true ∧ S.equiv v (val y) = true ∧ ∀ T ∈ pre, ¬ T.Bans val els v

theorem insertC_first {M : Type} {val : Id → V} {hd x : Id} {els pool : List Id} {n size : Nat} {hint : Option Id} {m0 : M} {base : Out M}
    (x0 : x ≠ 0) (hx : x ∉ hd :: els) (hh : ∀ p, hint = some p → p ∈ hd :: els) (hs : size = els.length) (hn : els.length + 3 ≤ n)
    (sub : ∀ z ∈ els, z ∈ pool) (xp : x ∈ pool) :
    ∀ {Ls : List (Layer V)} {xss : List (List Id)} {e : Nat → Env} {xr : Id} {r : Ins V M}, OkAll (specs Ls) → Fit val hd els Ls xss →
      EnvAll hd size pool e Ls → Clear pool Ls → insertC n hd val hint size m0 base x e xr Ls = .ok r → r.res = x ∨ First (specs Ls) val els (val x) r.res
  | [], xss, e, xr, r, ok, f, env, av, h => by
    unfold insertC at h
    split at h
    · cases h; exact Or.inl rfl
    · cases h
    · cases h
    · cases h
  | L :: Ls, xss, e, xr, r, ok, f, env, av, h => by
    obtain ⟨xs, yss, rfl, w, p, f2⟩ := f.cases
    obtain ⟨L1, k1, k2, k3, xs1, w1, s1⟩ := Layer.reserve_spec ok.head w (by rw [hs, p.length_eq]) env.1
      (fun z hz => sub z (p.mem_iff.1 hz)) av.head
    have p1 : xs1.Perm els := (Same.perm s1).trans p
    rcases k1 with ⟨k1, rdy⟩ | ⟨k1, q⟩
    swap
    · simp only [insertC, k1] at h; cases h
    have hx1 : x ∉ hd :: xs1 := by
      intro k
      rcases List.mem_cons.1 k with rfl | k
      · exact hx (by simp)
      · exact hx (List.mem_cons_of_mem _ (p1.mem_iff.1 k))
    rcases Layer.point_spec (e := e 0) (n := n) (hint := hint) (k2 ▸ ok.head) w1 x0 hx1 (k3 x xp)
      (fun q hq => by
        rcases List.mem_cons.1 (hh q hq) with rfl | k
        · simp
        · exact List.mem_cons_of_mem _ (p1.mem_iff.2 k))
      (by rw [p1.length_eq]; exact hn) with ⟨j1, j2⟩ | ⟨y, hy, j1, j2, j3⟩ | ⟨pt, u, v, j1, j2, j3, j4, j5⟩
    · simp only [insertC, k1, j1] at h; cases h
    · simp only [insertC, k1, j1] at h
      cases h
      exact Or.inr ⟨[], L.spec, specs Ls, rfl, by rw [← k2]; exact j2, by rw [← k2]; exact j3, fun T hT => nomatch hT⟩
    · simp only [insertC, k1, j1] at h
      cases hr : insertC n hd val hint size m0 base x (tl e) xr Ls with
      | ok r' =>
        rw [hr] at h
        have hres : r.res = r'.res := by
          simp only at h
          split at h
          · split at h
            · cases h
            · cases h; rfl
          · cases h; rfl
        rcases insertC_first x0 hx hh hs hn sub xp ok.tail f2 env.2 av.tail hr with q | ⟨pre, S, post, q1, q2, q3, q4⟩
        · exact Or.inl (hres.trans q)
        · rw [hres]
          refine Or.inr ⟨L.spec :: pre, S, post, by simp [specs] at q1 ⊢; exact q1, q2, q3, fun T hT => ?_⟩
          rcases List.mem_cons.1 hT with rfl | hT
          · rw [k2] at j3
            rintro ⟨b1, y, hy, b2⟩
            exact j3 ⟨b1, y, p1.mem_iff.2 hy, b2⟩
          · exact q4 T hT
      | threw r' => rw [hr] at h; cases h
      | ub => rw [hr] at h; cases h
      | hang => rw [hr] at h; cases h

theorem First.congr {Ss : List (Spec V)} {val val' : Id → V} {els : List Id} {v : V} {y : Id} (hy : y ∈ els) (h : ∀ z ∈ els, val' z = val z) (f : First Ss val els v y) :
    First Ss val' els v y := by
  obtain ⟨pre, S, post, q1, q2, q3, q4⟩ := f
  refine ⟨pre, S, post, q1, q2, by rw [h y hy]; exact q3, fun T hT => ?_⟩
  rintro ⟨b1, z, hz, b2⟩
  exact q4 T hT ⟨b1, z, hz, by rw [← h z hz]; exact b2⟩

variable {w w' : World V} {i j : Nat} {c : Container V} {x y : Id}

theorem insert_first {v : V} {f : Fault} {hint : Option Id} {e : Nat → Env} (I : Inv w) (l : w.Legal (.insert i v x f hint e)) (hi : w.cs[i]? = some c)
    (s : w.step (.insert i v x f hint e) = .ok (w', ⟨y, false⟩)) (hy : y ∈ c.elems) : First c.asked w.m.val c.elems v y := by
  obtain ⟨d, hi', hf, hh, env⟩ := l
  obtain rfl := Option.some.inj (hi.symm.trans hi')
  obtain ⟨hc, so, cl, sa, sc, z0, h0⟩ := I.facts hi
  have hx := Fresh.not_mem I hf hc
  have nx : ∀ z ∈ c.elems, upd w.m.val x v z = w.m.val z := fun z hz => upd_other _ _ (by rintro rfl; exact hx (by simp [hz]))
  have s' := so.congr nx
  simp only [World.step, hi, Container.insert] at s
  cases hr : insertC c.budget c.hd (upd w.m.val x v) hint c.count w.m (baseInsert f w.m x v) x e 0 c.ls with
  | ok r =>
    have k := insertC_first hf.1 hx hh so.count so.budget (fun z hz => List.mem_cons_of_mem _ (sa z hz)) (List.mem_cons_self ..) so.ok s'.fit env (Fresh.clear I hf hc) hr
    rw [hr] at s
    have : y = r.res := by
      simp only at s
      split at s <;> simp [World.put] at s
      exact s.2.symm
    rcases k with k | k
    · exact absurd (by rw [this, k] at hy; exact List.mem_cons_of_mem _ hy) hx
    · rw [← this, upd_same] at k
      exact k.congr hy fun z hz => (nx z hz).symm
  | threw r => rw [hr] at s; simp [World.put] at s
  | ub => rw [hr] at s; simp [World.put] at s
  | hang => rw [hr] at s; simp [World.put] at s

theorem emplace_first {v : V} {f : Fault} {hint : Option Id} {e : Nat → Env} (I : Inv w) (l : w.Legal (.emplace i v x f hint e)) (hi : w.cs[i]? = some c)
    (s : w.step (.emplace i v x f hint e) = .ok (w', ⟨y, false⟩)) (hy : y ∈ c.elems) : First c.asked w.m.val c.elems v y := by
  obtain ⟨d, hi', hf, hh, env⟩ := l
  obtain rfl := Option.some.inj (hi.symm.trans hi')
  obtain ⟨hc, so, cl, sa, sc, z0, h0⟩ := I.facts hi
  have hx := Fresh.not_mem I hf hc
  have nx : ∀ z ∈ c.elems, upd w.m.val x v z = w.m.val z := fun z hz => upd_other _ _ (by rintro rfl; exact hx (by simp [hz]))
  have s' := so.congr nx
  simp only [World.step, hi, Container.emplace] at s
  split at s
  · simp [World.put] at s
  split at s
  · split at s <;> simp [World.put] at s
  have hval : ((w.m.allocate x).construct x v).val = upd w.m.val x v := rfl
  rw [hval] at s
  cases hr : insertC c.budget c.hd (upd w.m.val x v) hint c.count ((w.m.allocate x).construct x v) (.ok ((w.m.allocate x).construct x v)) x e x c.ls with
  | ok r =>
    have k := insertC_first hf.1 hx hh so.count so.budget (fun z hz => List.mem_cons_of_mem _ (sa z hz)) (List.mem_cons_self ..) so.ok s'.fit env (Fresh.clear I hf hc) hr
    rw [hr] at s
    have : y = r.res := by
      simp only at s
      split at s
      · simp [World.put] at s
      · split at s <;> simp [World.put] at s
        exact s.2.symm
    rcases k with k | k
    · exact absurd (by rw [this, k] at hy; exact List.mem_cons_of_mem _ hy) hx
    · rw [← this, upd_same] at k
      exact k.congr hy fun z hz => (nx z hz).symm
  | threw r =>
    rw [hr] at s
    simp only at s
    split at s
    · simp [World.put] at s
    · split at s <;> simp [World.put] at s
  | ub => rw [hr] at s; simp [World.put] at s
  | hang => rw [hr] at s; simp [World.put] at s

theorem insertNh_first {h : Nat} {hint : Option Id} {e : Nat → Env} (I : Inv w) (l : w.Legal (.insertNh i h hint e)) (hh' : w.hs[h]? = some (some x))
    (hi : w.cs[i]? = some c) (s : w.step (.insertNh i h hint e) = .ok (w', ⟨y, false⟩)) (hy : y ∈ c.elems) : First c.asked w.m.val c.elems (w.m.val x) y := by
  obtain ⟨d, hi', hl, hh, env⟩ := l
  obtain rfl := Option.some.inj (hi.symm.trans hi')
  obtain ⟨hc, so, cl, sa, sc, z0, h0⟩ := I.facts hi
  have xh : x ∈ handled w.hs := List.mem_filterMap.2 ⟨some x, List.mem_of_getElem? hh', rfl⟩
  have hx : x ∉ c.hd :: c.elems := fun k => I.handle_disj hc k xh
  have xa := I.handle_alloc xh
  simp only [World.step, hi, hh', Container.insertNh] at s
  cases hr : insertC c.budget c.hd w.m.val hint c.count w.m (.ok w.m) x e x c.ls with
  | ok r =>
    have k := insertC_first (I.nz' xa) hx hh so.count so.budget sa xa so.ok so.fit env cl hr
    rw [hr] at s
    have : y = r.res := by
      simp only at s
      by_cases q : r.res = r.xr
      · rw [if_pos q] at s; simp at s
      · rw [if_neg q] at s; simp at s; exact s.2.symm
    rcases k with k | k
    · exact absurd (by rw [this, k] at hy; exact List.mem_cons_of_mem _ hy) hx
    · rw [← this] at k
      exact k
  | threw r => rw [hr] at s; simp at s
  | ub => rw [hr] at s; simp at s
  | hang => rw [hr] at s; simp at s

theorem transfer_first {e : Nat → Env} (I : Inv w) (l : w.Legal (.transfer i j x e)) (hi : w.cs[i]? = some c)
    (s : w.step (.transfer i j x e) = .ok (w', ⟨y, false⟩)) (hy : y ∈ c.elems) : First c.asked w.m.val c.elems (w.m.val x) y := by
  obtain ⟨ne, c', d, hi', hj, hxd, env⟩ := l
  obtain rfl := Option.some.inj (hi.symm.trans hi')
  obtain ⟨hc, so, cl, sa, sc, z0, h0⟩ := I.facts hi
  obtain ⟨hc2, s2, cl2, sa2, sc2, z02, h02⟩ := I.facts hj
  have hx : x ∉ c.hd :: c.elems := by
    intro k
    have hm : c ∈ w.cs.eraseIdx j := by
      rw [List.mem_eraseIdx_iff_getElem?]
      exact ⟨i, ne, hi⟩
    exact I.disj hj hm (by simp [hxd]) k
  simp only [World.step, hi, hj, Container.transfer] at s
  cases hr : insertC c.budget c.hd w.m.val none c.count d (Container.unlinkAll w.m d x) x e x c.ls with
  | ok r =>
    have k := insertC_first (hint := none) (I.nz' (sa2 x hxd)) hx (fun _ h => nomatch h) so.count so.budget sa (sa2 x hxd) so.ok so.fit env cl hr
    rw [hr] at s
    have : y = r.res := by
      simp only at s
      by_cases q : r.res = r.xr
      · rw [if_pos q] at s; simp at s
      · rw [if_neg q] at s; simp at s; exact s.2.symm
    rcases k with k | k
    · exact absurd (by rw [this, k] at hy; exact List.mem_cons_of_mem _ hy) hx
    · rw [← this] at k
      exact k
  | threw r => rw [hr] at s; simp at s
  | ub => rw [hr] at s; simp at s
  | hang => rw [hr] at s; simp at s

end MI.Cont

namespace MI.Ideal
open MI MI.Cont
variable {V : Type} {val val' : Id → V} {S : Spec V} {xs ys xs1 ys1 : List Id} {x : Id}

theorem Shows.perm (h : Shows xs ys S) : ys.Perm xs := by
  cases S with
  | hash => exact h
  | _ => exact List.Perm.of_eq h

theorem shows_refl : Shows xs xs S := by
  cases S with
  | hash => exact List.Perm.refl _
  | _ => exact rfl

theorem Shows.same (h : Shows xs ys S) (s : S.Same val ys ys1) : Shows xs ys1 S := by
  cases S with
  | hash => exact s.1.trans h
  | ord => exact Eq.trans s h
  | seq => exact Eq.trans s h
  | rnd => exact Eq.trans s h

theorem Shows.erase (h : Shows xs ys S) : Shows (xs.erase x) (ys.erase x) S := by
  cases S with
  | hash => exact List.Perm.erase _ h
  | ord => exact congrArg (·.erase x) h
  | seq => exact congrArg (·.erase x) h
  | rnd => exact congrArg (·.erase x) h

theorem idxOf_split {p : Id} {a b : List Id} (nd : (b ++ a).Nodup) (h : Spec.Between p b a) : (b ++ a).idxOf p = b.length := by
  rcases h with h | ⟨rfl, h⟩
  · cases a with
    | nil => cases h
    | cons y a =>
      obtain rfl : y = p := by simpa using h
      have : y ∉ b := fun k => by
        have := List.nodup_append.1 nd
        exact this.2.2 y k y (by simp) rfl
      rw [List.idxOf_append_of_notMem this, List.idxOf_cons_self]
      rfl
  · rw [List.append_nil, List.idxOf_of_notMem h]

theorem place_eq {un : Bool} {lt : V → V → Bool} {hint : Option Id} {u v : List Id} (nd : (u ++ v).Nodup) (hv : ∀ a ∈ x :: (u ++ v), val' a = val a)
    (h : (Spec.ord un lt).Where val hint x u v) : place lt val' hint x (u ++ v) = u ++ x :: v := by
  obtain ⟨h1, h2, h3, h4⟩ := h
  have hx : val' x = val x := hv x (by simp)
  have hu : ∀ a ∈ u, val' a = val a := fun a ha => hv a (by simp [ha])
  have hw : ∀ a ∈ v, val' a = val a := fun a ha => hv a (by simp [ha])
  let L := fun y => lt (val' y) (val' x)
  let U := fun y => !lt (val' x) (val' y)
  have vL : v.countP L = 0 := List.countP_eq_zero.2 fun a ha => by show ¬ lt (val' a) (val' x) = true; rw [hx, hw a ha, h2 a ha]; simp
  have uU : u.countP U = u.length := List.countP_eq_length.2 fun a ha => by show (!lt (val' x) (val' a)) = true; rw [hx, hu a ha, h1 a ha]; rfl
  have uL : u.countP L ≤ u.length := List.countP_le_length
  have vU : (∀ a ∈ v, lt (val x) (val a) = true) → v.countP U = 0 := fun k => List.countP_eq_zero.2 fun a ha => by
    show ¬ (!lt (val' x) (val' a)) = true; rw [hx, hw a ha, k a ha]; simp
  have uL' : (∀ a ∈ u, lt (val a) (val x) = true) → u.countP L = u.length := fun k => List.countP_eq_length.2 fun a ha => by
    show lt (val' a) (val' x) = true; rw [hx, hu a ha]; exact k a ha
  have key : (match (generalizing := false) hint with
      | none => (u ++ v).countP U
      | some p => max ((u ++ v).countP L) (min ((u ++ v).idxOf p) ((u ++ v).countP U))) = u.length := by
    rw [List.countP_append, List.countP_append, vL, uU]
    cases hint with
    | none =>
      have := vU (h3 rfl)
      show u.length + v.countP U = u.length
      omega
    | some p =>
      show max (u.countP L + 0) (min _ (u.length + v.countP U)) = _
      obtain ⟨b, a, e, bt, k⟩ := h4 p rfl
      have ix : (u ++ v).idxOf p = b.length := by rw [e] at nd ⊢; exact idxOf_split nd bt
      rw [ix]
      rcases k with rfl | ⟨k, k'⟩ | ⟨k, k'⟩
      · omega
      · have := uL' k'
        omega
      · have := vU k'
        omega
  have e : place lt val' hint x (u ++ v) = (u ++ v).take (match (generalizing := false) hint with
      | none => (u ++ v).countP U
      | some p => max ((u ++ v).countP L) (min ((u ++ v).idxOf p) ((u ++ v).countP U))) ++ x :: (u ++ v).drop (match (generalizing := false) hint with
      | none => (u ++ v).countP U
      | some p => max ((u ++ v).countP L) (min ((u ++ v).idxOf p) ((u ++ v).countP U))) := by
    cases hint <;> rfl
  rw [e, key, List.take_left' rfl, List.drop_left' rfl]

theorem pairwise_or {R : Id → Id → Prop} {a b : Id} : ∀ {l : List Id}, l.Pairwise R → a ∈ l → b ∈ l → a ≠ b → R a b ∨ R b a
  | [], _, h, _, _ => nomatch h
  | c :: l, p, ha, hb, ne => by
    rw [List.pairwise_cons] at p
    rcases List.mem_cons.1 ha with h1 | h1 <;> rcases List.mem_cons.1 hb with h2 | h2
    · exact absurd (h1.trans h2.symm) ne
    · exact Or.inl (h1 ▸ p.1 b h2)
    · exact Or.inr (h2 ▸ p.1 a h1)
    · exact pairwise_or p.2 h1 h2 ne

/-- Insertion. -/
theorem Shows.added {hint : Option Id} (h : Shows xs ys S) (nd : ys.Nodup) (hv : ∀ a ∈ x :: ys, val' a = val a) (a : Added val hint x S ys ys1) :
    Shows (put val' hint x (S, xs)).2 ys1 S := by
  obtain ⟨u, v, rfl, s, wh⟩ := a
  cases S with
  | hash n eq hf => exact List.perm_middle.trans ((s.1.trans h).cons x)
  | ord un lt =>
    have e1 : u ++ v = ys := s
    have e2 : ys = xs := h
    subst e2
    subst e1
    exact (place_eq nd hv wh).symm
  | seq =>
    have e1 : u ++ v = ys := s
    have e2 : ys = xs := h
    rw [show v = [] from wh, List.append_nil] at e1
    rw [show v = [] from wh]
    subst e1; subst e2
    exact rfl
  | rnd =>
    have e1 : u ++ v = ys := s
    have e2 : ys = xs := h
    rw [show v = [] from wh, List.append_nil] at e1
    rw [show v = [] from wh]
    subst e1; subst e2
    exact rfl

theorem sorted_iff {un : Bool} {lt : V → V → Bool} (hv : ∀ a ∈ xs, val' a = val a) : sorted un lt val' xs = true ↔ (Spec.ord un lt).Good val xs := by
  unfold sorted
  rw [decide_eq_true_iff]
  cases un with
  | true =>
    show xs.Pairwise _ ↔ xs.Pairwise _
    constructor
    · intro h; exact h.imp_of_mem fun ha hb k => by simpa [hv _ ha, hv _ hb] using k
    · intro h; exact h.imp_of_mem fun ha hb k => by simpa [hv _ ha, hv _ hb] using k
  | false =>
    show xs.Pairwise _ ↔ Sorted _ xs
    unfold Sorted
    constructor
    · intro h; exact h.imp_of_mem fun ha hb k => by simpa [hv _ ha, hv _ hb] using k
    · intro h; exact h.imp_of_mem fun ha hb k => by simpa [hv _ ha, hv _ hb] using k

/-- A change of value. -/
theorem Shows.moved {v0 : V} (h : Shows xs ys S) (nd : ys.Nodup) (hx : x ∈ ys) (hv : ∀ a ∈ ys, val' a = val a) (a : Moved v0 val x S ys ys1) :
    Shows (move val' x (S, xs)).2 ys1 S := by
  obtain ⟨u, v, e, rfl, m⟩ := a
  cases S with
  | hash n eq hf =>
    refine (List.perm_middle.trans (List.Perm.cons _ (by rw [← e]))).trans ((List.perm_cons_erase hx).symm.trans h)
  | ord un lt =>
    have e2 : ys = xs := h
    subst e2
    show _ = _
    unfold move
    simp only
    by_cases q : (Spec.ord un lt).Good val ys
    · rw [if_pos ((sorted_iff hv).2 q)]
      exact m.1 q
    · rw [if_neg (fun k => q ((sorted_iff hv).1 k)), e]
      refine (place_eq (by rw [← e]; exact nd.erase _) (fun a ha => hv a ?_) (m.2 q)).symm
      rcases List.mem_cons.1 ha with rfl | ha
      · exact hx
      · rw [← e] at ha; exact List.mem_of_mem_erase ha
  | seq => exact Eq.trans m h
  | rnd => exact Eq.trans m h

/-- In a unique index, no two elements have keys equivalent to a given one. -/
theorem only_one {a b : Id} {v : V} (ok : S.Ok) (g : S.Good val ys) (hu : S.unique = true) (ha : a ∈ ys) (hb : b ∈ ys) (ea : S.equiv v (val a) = true)
    (eb : S.equiv v (val b) = true) : a = b := by
  by_contra ne
  cases S with
  | seq => cases hu
  | rnd => cases hu
  | ord u lt =>
    obtain rfl : u = true := hu
    have sw : StrictWeak lt := ok
    have ea : equivOf lt v (val a) = true := ea
    have eb : equivOf lt v (val b) = true := eb
    simp only [equivOf, Bool.and_eq_true, Bool.not_eq_true'] at ea eb
    have := sw.incomp ea.2 ea.1 eb.1 eb.2
    have g : ys.Pairwise (fun a b => lt (val a) (val b) = true) := g
    have k : lt (val a) (val b) = true ∨ lt (val b) (val a) = true := pairwise_or g ha hb ne
    rw [this.1, this.2] at k
    simp at k
  | hash n eq hf =>
    have eh : EqHash eq hf := ok
    obtain rfl : n = .uniq := by simpa [Spec.unique] using hu
    have g : ys.Pairwise (fun a b => eq (val a) (val b) = false) := g
    have ea : eq v (val a) = true := ea
    have eb : eq v (val b) = true := eb
    have k : eq (val a) (val b) = false ∨ eq (val b) (val a) = false := pairwise_or g ha hb ne
    rw [eh.trans (eh.symm ea) eb, eh.trans (eh.symm eb) ea] at k
    simp at k

end MI.Ideal
