import Verif.Cont.AskLemmas
import Verif.Props.Compare
/-!
Each question is answered as the ideal says.
-/
set_option linter.unusedVariables false
namespace MI.Ideal
open MI MI.Cont
variable {V : Type} {w : World V} {a : State V} {i j k l : Nat} {S : Spec V} {xs ys : List Id} {c : Container V} {L : Layer V}

theorem Meets.mem (m : Meets w a i k S xs c L ys) : c ∈ w.cs := List.mem_of_getElem? m.hi

theorem findIdx_congr {p q : Id → Bool} : ∀ {l : List Id}, (∀ z ∈ l, p z = q z) → l.findIdx p = l.findIdx q
  | [], _ => rfl
  | x :: l, h => by
    rw [List.findIdx_cons, List.findIdx_cons, h x (by simp), findIdx_congr (l := l) fun z hz => h z (by simp [hz])]

theorem any_congr' {p q : Id → Bool} : ∀ {l : List Id}, (∀ z ∈ l, p z = q z) → l.any p = l.any q
  | [], _ => rfl
  | x :: l, h => by
    rw [List.any_cons, List.any_cons, h x (by simp), any_congr' (l := l) fun z hz => h z (by simp [hz])]

theorem countP_congr' {p q : Id → Bool} {l : List Id} (h : ∀ z ∈ l, p z = q z) : l.countP p = l.countP q :=
  List.countP_congr fun z hz => by rw [h z hz]

section ordered
variable {u : Bool} {lt : V → V → Bool}

/-- An ordered index of the program and of the ideal. -/
theorem ord_meets (f : Follows w a) (h : a.Is i k (.ord u lt)) : ∃ c hp, Meets w a i k (.ord u lt) (a.list i k) c (.ord u lt hp) (a.list i k) := by
  obtain ⟨xs, h⟩ := h
  obtain ⟨c, L, ys, m⟩ := meets f h
  obtain rfl := m.same trivial
  rw [m.lst]
  have := m.spec
  cases L with
  | ord u' lt' hp => cases this; exact ⟨c, hp, m⟩
  | hash _ _ _ _ _ _ _ => cases this
  | seq _ => cases this
  | rnd _ => cases this

theorem ask_search (f : Follows w a) {below above : V → Bool} (h : a.Compat i k below above) :
    w.ask (.find i k below above) = some (.pos ((a.list i k).find? fun z => !below (a.val z) && !above (a.val z))) ∧
    w.ask (.contains i k below above) = some (.bool ((a.list i k).any fun z => !below (a.val z) && !above (a.val z))) ∧
    w.ask (.lower i k below above) = some (.pos ((a.list i k).find? fun z => !below (a.val z))) ∧
    w.ask (.upper i k below above) = some (.pos ((a.list i k).find? fun z => above (a.val z))) ∧
    w.ask (.count i k below above) = some (.num ((a.list i k).countP fun z => !below (a.val z) && !above (a.val z))) ∧
    w.ask (.equalRange i k below above) = some (.pair ((a.list i k).find? fun z => !below (a.val z)) ((a.list i k).find? fun z => above (a.val z))) ∧
    w.ask (.findRank i k below above) = some (.num ((a.list i k).findIdx fun z => !below (a.val z) && !above (a.val z))) ∧
    w.ask (.lowerRank i k below above) = some (.num ((a.list i k).countP fun z => below (a.val z))) ∧
    w.ask (.upperRank i k below above) = some (.num ((a.list i k).countP fun z => !above (a.val z))) ∧
    w.ask (.equalRangeRank i k below above) = some (.nums ((a.list i k).countP fun z => below (a.val z)) ((a.list i k).countP fun z => !above (a.val z))) ∧
    w.ask (.countRanked i k below above) = some (.num ((a.list i k).countP fun z => !below (a.val z) && !above (a.val z))) := by
  obtain ⟨u, lt, hIs, ce⟩ := h
  obtain ⟨c, hp, m⟩ := ord_meets f hIs
  have rc := f.reach.1
  obtain ⟨e1, e2, e3, e4, e5, p, mm, s, q1, q2, q3, q4, q5⟩ := C12_container rc m.mem m.hL m.hs ce ()
  obtain ⟨r1, r2, r3, r4, r5⟩ := C19_container rc m.mem m.hL m.hs ce ()
  have eqv : ∀ z ∈ a.list i k, (equivTo (fun v (_ : Unit) => below v) (fun _ v => above v) () (w.m.val z)) = (!below (a.val z) && !above (a.val z)) := fun z hz => by
    rw [m.val z hz]; rfl
  have lo : ∀ z ∈ a.list i k, (!below (w.m.val z)) = !below (a.val z) := fun z hz => by rw [m.val z hz]
  have lo' : ∀ z ∈ a.list i k, (below (w.m.val z)) = below (a.val z) := fun z hz => by rw [m.val z hz]
  have up : ∀ z ∈ a.list i k, (above (w.m.val z)) = above (a.val z) := fun z hz => by rw [m.val z hz]
  have up' : ∀ z ∈ a.list i k, (!above (w.m.val z)) = !above (a.val z) := fun z hz => by rw [m.val z hz]
  have hpm : ∀ z ∈ p ++ mm, above (a.val z) = false := by
    intro z hz
    have hz' : z ∈ a.list i k := by rw [q1]; exact List.mem_append_left _ hz
    rw [m.val z hz']
    rcases List.mem_append.1 hz with hz | hz
    · have b := q4 z hz
      by_contra h
      have := ce.asymm () (w.m.val z) (by simpa using h)
      rw [show below (w.m.val z) = false from this] at b
      cases b
    · rw [q3] at hz
      have := (List.mem_filter.1 hz).2
      simp only [equivTo, Bool.and_eq_true, Bool.not_eq_true'] at this
      exact this.2
  have hms : ∀ z ∈ mm ++ s, below (a.val z) = false := by
    intro z hz
    have hz' : z ∈ a.list i k := by rw [q1, List.append_assoc]; exact List.mem_append_right _ hz
    rw [m.val z hz']
    rcases List.mem_append.1 hz with hz | hz
    · rw [q3] at hz
      have := (List.mem_filter.1 hz).2
      simp only [equivTo, Bool.and_eq_true, Bool.not_eq_true'] at this
      exact this.1
    · exact ce.asymm () (w.m.val z) (q5 z hz)
  have hlow : (a.list i k).find? (fun z => !below (a.val z)) = (mm ++ s).head? := by
    conv_lhs => rw [q1, List.append_assoc]
    refine find_head (fun z hz => ?_) fun z hz => by rw [hms z (List.mem_of_head? hz)]; rfl
    have hz' : z ∈ a.list i k := by rw [q1]; simp [hz]
    rw [m.val z hz']
    simpa using q4 z hz
  have hup : (a.list i k).find? (fun z => above (a.val z)) = s.head? := by
    conv_lhs => rw [q1]
    refine find_head hpm fun z hz => ?_
    have hzs := List.mem_of_head? hz
    have hz' : z ∈ a.list i k := by rw [q1]; simp [hzs]
    rw [m.val z hz']
    exact q5 z hzs
  have hd1 : c.hd ∉ mm ++ s := fun h => m.hd (by rw [q1, List.append_assoc]; exact List.mem_append_right _ h)
  have hd2 : c.hd ∉ s := fun h => hd1 (List.mem_append_right _ h)
  unfold World.ask
  simp only [m.lay]
  refine ⟨?_, ?_, ?_, ?_, ?_, ?_, ?_, ?_, ?_, ?_, ?_⟩
  · rw [e1, Option.map_some, spot_find m.hd, List.find?_congr eqv]
  · rw [e2, Option.map_some, any_congr' eqv]
  · rw [e3, Option.map_some, spot_find m.hd, List.find?_congr lo]
  · rw [e4, Option.map_some, spot_find m.hd, List.find?_congr up]
  · rw [e5, Option.map_some, countP_congr' eqv]
  · rw [q2, Option.map_some, spot_head hd1, spot_head hd2, hlow, hup]
  · rw [r1, Option.map_some, findIdx_congr eqv]
  · rw [r2, Option.map_some, countP_congr' lo']
  · rw [r3, Option.map_some, countP_congr' up']
  · rw [r4, Option.map_some, countP_congr' lo', countP_congr' up']
  · rw [r5, Option.map_some, countP_congr' eqv]

theorem ask_range (f : Follows w a) {lower upper : Option (V → Bool)} (h : a.Bounds i k lower upper) :
    w.ask (.range i k lower upper) =
      some (.pair ((a.list i k).find? fun z => holds lower (a.val z)) ((a.list i k).find? fun z => holds lower (a.val z) && !holds upper (a.val z))) ∧
    w.ask (.rangeRank i k lower upper) = some (.nums ((a.list i k).countP fun z => !holds lower (a.val z))
      ((a.list i k).countP (fun z => !holds lower (a.val z)) + (a.list i k).countP fun z => holds lower (a.val z) && holds upper (a.val z))) := by
  obtain ⟨u, lt, hIs, hlo, hup⟩ := h
  obtain ⟨c, hp, m⟩ := ord_meets f hIs
  have rc := f.reach.1
  obtain ⟨p, mm, s, q1, q2, q3, q4, q5⟩ := C13_container rc m.mem m.hL m.hs lower upper hlo hup
  obtain ⟨r1, -⟩ := C19_range_container rc m.mem m.hL m.hs lower upper hlo hup
  have mp : ∀ z ∈ p, z ∈ a.list i k := fun z hz => by rw [q1]; simp [hz]
  have mm' : ∀ z ∈ mm, z ∈ a.list i k := fun z hz => by rw [q1]; simp [hz]
  have ms : ∀ z ∈ s, z ∈ a.list i k := fun z hz => by rw [q1]; simp [hz]
  have hd1 : c.hd ∉ mm ++ s := fun h => m.hd (by rw [q1, List.append_assoc]; exact List.mem_append_right _ h)
  have hd2 : c.hd ∉ s := fun h => hd1 (List.mem_append_right _ h)
  have nd := m.nd
  unfold World.ask
  simp only [m.lay]
  refine ⟨?_, ?_⟩
  · rw [q2, Option.map_some, spot_head hd1, spot_head hd2]
    congr 2
    · conv_rhs => rw [q1, List.append_assoc]
      refine (find_head (fun z hz => ?_) fun z hz => ?_).symm
      · rw [m.val z (mp z hz)]; exact q4 z hz
      · have hz := List.mem_of_head? hz
        rw [m.val z (by rcases List.mem_append.1 hz with h | h; exact mm' z h; exact ms z h)]
        exact q5 z hz
    · conv_rhs => rw [q1]
      refine (find_head (fun z hz => ?_) fun z hz => ?_).symm
      · rcases List.mem_append.1 hz with hz | hz
        · rw [m.val z (mp z hz), q4 z hz]; rfl
        · rw [m.val z (mm' z hz)]
          rw [q3] at hz
          have := (List.mem_filter.1 hz).2
          simp only [Bool.and_eq_true] at this
          rw [this.2]; simp
      · have hz := List.mem_of_head? hz
        rw [m.val z (ms z hz), q5 z (List.mem_append_right _ hz)]
        by_contra h
        have hu : holds upper (w.m.val z) = true := by simpa using h
        have : z ∈ mm := by
          rw [q3]
          exact List.mem_filter.2 ⟨ms z hz, by rw [q5 z (List.mem_append_right _ hz), hu]; rfl⟩
        rw [q1] at nd
        exact (List.nodup_append.1 nd).2.2 z (List.mem_append_right _ this) z hz rfl
  · rw [r1, Option.map_some]
    have e1 : (a.list i k).countP (fun z => !holds lower (w.m.val z)) = (a.list i k).countP fun z => !holds lower (a.val z) :=
      countP_congr' fun z hz => by rw [m.val z hz]
    have e2 : (a.list i k).countP (fun z => holds lower (w.m.val z) && holds upper (w.m.val z)) = (a.list i k).countP fun z => holds lower (a.val z) && holds upper (a.val z) :=
      countP_congr' fun z hz => by rw [m.val z hz]
    rw [e1, e2]

theorem ask_nth (f : Follows w a) (h : a.Is i k (.ord u lt)) (n : Nat) : w.ask (.nth i k n) = some (.pos (a.list i k)[n]?) := by
  obtain ⟨c, hp, m⟩ := ord_meets f h
  obtain ⟨e1, -, -⟩ := C18_container f.reach.1 m.mem m.hL m.hs
  unfold World.ask
  simp only [m.lay]
  rw [e1, Option.map_some, spot_get m.hd]

theorem ask_rank (f : Follows w a) (h : a.Is i k (.ord u lt)) {p : Option Id} (hp : ∀ x, p = some x → x ∈ a.list i k) :
    w.ask (.rank i k p) = some (.num (offset (a.list i k) p)) := by
  obtain ⟨c, hh, m⟩ := ord_meets f h
  obtain ⟨-, e2, e3⟩ := C18_container f.reach.1 m.mem m.hL m.hs
  obtain ⟨s, t, q1, q2, q3⟩ := getD_offset m.hd hp
  unfold World.ask
  simp only [m.lay]
  rw [q2, q3]
  cases t with
  | nil => rw [List.headD_nil, e3, Option.map_some, m.cnt, q1]; simp
  | cons y t => rw [List.headD_cons, e2 s y t q1, Option.map_some]

end ordered

section hashed
variable {g : Hash.Cat} {eq : V → V → Bool} {hf : V → Nat}

theorem ask_hash (f : Follows w a) {p : V → Bool} {hk : Nat} (h : a.CompatH i k p hk) :
    (∃ r, w.ask (.hashFind i k p hk) = some r ∧ a.Says (.hashFind i k p hk) r) ∧
    (∃ r, w.ask (.hashCount i k p hk) = some r ∧ a.Says (.hashCount i k p hk) r) ∧
    (∃ r, w.ask (.hashRange i k p hk) = some r ∧ a.Says (.hashRange i k p hk) r) := by
  obtain ⟨g, eq, hf, ⟨xs, hIs⟩, ce⟩ := h
  obtain ⟨c, L, ys, m⟩ := meets f hIs
  have rc := f.reach.1
  have pm := m.perm
  have hsp := m.spec
  cases L with
  | ord _ _ _ => cases hsp
  | seq _ => cases hsp
  | rnd _ => cases hsp
  | hash g' eq' hf' pol ml hp ar =>
    cases hsp
    obtain ⟨e1, e2, s, mm, t, q1, q2, q3⟩ := C20_container rc m.mem m.hL m.hs ce ()
    unfold World.ask
    simp only [m.lay]
    rw [e1, e2, q3]
    refine ⟨⟨_, rfl, ?_⟩, ⟨_, rfl, ?_⟩, ?_⟩
    · rw [spot_find m.hd]
      show (∃ x ∈ a.list i k, _) ∨ _
      rw [m.lst]
      cases hfd : ys.find? (fun y => p (w.m.val y)) with
      | none =>
        right
        refine ⟨fun x hx => ?_, rfl⟩
        have hy := pm.mem_iff.2 hx
        rw [m.val x hy]
        simpa using List.find?_eq_none.1 hfd x hy
      | some x =>
        left
        have hy := List.mem_of_find?_eq_some hfd
        refine ⟨x, pm.mem_iff.1 hy, ?_, rfl⟩
        rw [m.val x hy]
        have := List.find?_some hfd
        exact this
    · show Ans.num _ = Ans.num _
      rw [m.lst, ← pm.countP_eq]
      congr 1
      exact countP_congr' fun z hz => by rw [m.val z hz]
    · refine ⟨.list mm, ?_, mm, ?_, rfl⟩
      · have hh := m.holds
        have hb := m.bud
        simp only
        by_cases hm : mm = []
        · rw [if_pos hm, hm]
          have := walkTo_spec (m := []) (u := ys) (s := []) (b := c.budget) (n := c.budget) (by simpa using hh) (by simpa using hb) (by simp)
          simp only [List.headD_nil, List.append_nil] at this
          simp only
          rw [this]; rfl
        · rw [if_neg hm]
          have := walkTo_spec (m := mm) (u := s) (s := t) (b := c.budget) (n := c.budget) (by rw [← q1]; exact hh) (by rw [← q1]; exact hb)
            (by rw [q1] at hb; simp at hb; omega)
          have hhd : (mm ++ t).headD c.hd = mm.headD c.hd := by
            cases mm with
            | nil => exact absurd rfl hm
            | cons y mm => rfl
          rw [hhd] at this
          simp only
          rw [this]; rfl
      · rw [q2, m.lst]
        have : ys.filter (fun y => p (w.m.val y)) = ys.filter (fun y => p (a.val y)) := List.filter_congr fun z hz => by rw [m.val z hz]
        rw [this]
        exact pm.filter _

end hashed

theorem ask_walk (f : Follows w a) (h : a.Is i k S) : ∃ ys, w.ask (.walk i k) = some (.list ys) ∧ Shows (a.list i k) ys S := by
  obtain ⟨xs, h⟩ := h
  obtain ⟨c, L, ys, m⟩ := meets f h
  refine ⟨ys, ?_, m.lst ▸ m.sh⟩
  unfold World.ask
  simp only [m.lay]
  rw [Layer.walk_spec m.holds m.bud]; rfl

theorem ask_first (f : Follows w a) (h : a.Is i k S) (fx : Fixed S) : w.ask (.first i k) = some (.pos (a.list i k)[0]?) := by
  obtain ⟨xs, h⟩ := h
  obtain ⟨c, L, ys, m⟩ := meets f h
  obtain rfl := m.same fx
  unfold World.ask
  simp only [m.lay]
  rw [Layer.first_spec m.holds, hdOr_eq, spot_head m.hd, m.lst, List.head?_eq_getElem?]

theorem ask_next (f : Follows w a) (h : a.Is i k S) (fx : Fixed S) {x : Id} (hx : x ∈ a.list i k) :
    w.ask (.next i k x) = some (.pos (a.list i k)[(a.list i k).idxOf x + 1]?) := by
  obtain ⟨xs, h⟩ := h
  obtain ⟨c, L, ys, m⟩ := meets f h
  obtain rfl := m.same fx
  rw [m.lst] at hx ⊢
  obtain ⟨u, v, e, nu⟩ := List.eq_append_cons_of_mem hx
  have hh := m.holds
  have hb := m.bud
  have hd := m.hd
  unfold World.ask
  simp only [m.lay]
  rw [e] at hh hb hd ⊢
  rw [Layer.next_spec hh hb, hdOr_eq, Option.map_some, spot_head (by simp at hd; exact hd.2.2), List.idxOf_append_of_notMem nu, List.idxOf_cons_self]
  have : (u ++ x :: v)[u.length + 0 + 1]? = v[0]? := by
    rw [List.getElem?_append_right (by omega)]
    simp
  rw [List.head?_eq_getElem?]
  exact congrArg (fun o => some (Ans.pos o)) this.symm

theorem ask_prior (f : Follows w a) (h : a.Is i k S) (fx : Fixed S) {p : Option Id} (hp : ∀ x, p = some x → x ∈ a.list i k) (h0 : 0 < offset (a.list i k) p) :
    w.ask (.prior i k p) = some (.pos (a.list i k)[offset (a.list i k) p - 1]?) := by
  obtain ⟨xs, h⟩ := h
  obtain ⟨c, L, ys, m⟩ := meets f h
  obtain rfl := m.same fx
  rw [m.lst] at hp h0 ⊢
  obtain ⟨u, v, q1, q2, q3⟩ := getD_offset m.hd hp
  rw [q3] at h0 ⊢
  rcases List.eq_nil_or_concat u with rfl | ⟨u', x, rfl⟩
  · simp at h0
  · rw [List.concat_eq_append] at *
    have hh := m.holds
    have hb := m.bud
    have hd := m.hd
    unfold World.ask
    simp only [m.lay]
    rw [q2]
    rw [q1, List.append_assoc] at hh hb hd
    have e := Layer.prev_spec (x := x) (u := u') (v := v) (n := c.budget) hh hb (by
      intro g e hf q
      rw [m.spec] at q
      subst q
      exact fx)
    rw [e, Option.map_some]
    have ne : x ≠ c.hd := by rintro rfl; simp at hd
    unfold spot
    rw [if_neg ne, q1]
    simp

section random
theorem rnd_meets (f : Follows w a) (h : a.Is i k .rnd) : ∃ c s, Meets w a i k .rnd (a.list i k) c (.rnd s) (a.list i k) := by
  obtain ⟨xs, h⟩ := h
  obtain ⟨c, L, ys, m⟩ := meets f h
  obtain rfl := m.same trivial
  rw [m.lst]
  have := m.spec
  cases L with
  | rnd s => exact ⟨c, s, m⟩
  | hash _ _ _ _ _ _ _ => cases this
  | seq _ => cases this
  | ord _ _ _ => cases this

theorem ask_at (f : Follows w a) (h : a.Is i k .rnd) {n : Nat} (hn : n < (a.list i k).length) : w.ask (.at i k n) = some (.pos (a.list i k)[n]?) := by
  obtain ⟨c, s, m⟩ := rnd_meets f h
  obtain ⟨e1, -, -⟩ := C32_container f.reach.1 m.mem m.hL m.hs (i := n) (j := n) (by omega) (by omega)
  unfold World.ask
  simp only [m.lay]
  rw [e1, spot_get m.hd]

theorem ask_distance (f : Follows w a) (h : a.Is i k .rnd) {p q : Option Id} (hp : ∀ x, p = some x → x ∈ a.list i k) (hq : ∀ x, q = some x → x ∈ a.list i k) :
    w.ask (.distance i k p q) = some (.int ((offset (a.list i k) q : Int) - offset (a.list i k) p)) := by
  obtain ⟨c, s, m⟩ := rnd_meets f h
  obtain ⟨u, v, p1, p2, p3⟩ := getD_offset m.hd hp
  obtain ⟨u', v', q1, q2, q3⟩ := getD_offset m.hd hq
  have := Layer.distance_spec (L := .rnd s) (val := w.m.val) (hd := c.hd) (u := u) (v := v) (u' := u') (v' := v') (by rw [← p1]; exact m.holds) (by rw [← p1, ← q1]) rfl
  unfold World.ask
  simp only [m.lay]
  rw [p2, p3, q2, q3]
  rw [Option.some.inj this]

end random

theorem ask_equal (f : Follows w a) {eq : V → V → Bool} (h : a.Fine (.equal eq i k j l)) : ∃ r, w.ask (.equal eq i k j l) = some r ∧ a.Says (.equal eq i k j l) r := by
  obtain ⟨S, T, hS, hT, q⟩ := h
  have hS0 := hS
  obtain ⟨xs, hS⟩ := hS
  obtain ⟨zs, hT⟩ := hT
  obtain ⟨c, L, ys, m⟩ := meets f hS
  obtain ⟨d, L', ts, m'⟩ := meets f hT
  have e1 : ys.map w.m.val = ys.map a.val := List.map_congr_left fun z hz => (m.val z hz).symm
  have e2 : ts.map w.m.val = ts.map a.val := List.map_congr_left fun z hz => (m'.val z hz).symm
  have rc := f.reach.1
  show ∃ r, (w.indexEq eq i k j l).map _ = some r ∧ _
  have nh : (∀ g e hf, S ≠ .hash g e hf) → ys = xs → ts = zs → ∃ r, (w.indexEq eq i k j l).map Ans.bool = some r ∧ a.Says (.equal eq i k j l) r := by
    rintro hh rfl rfl
    obtain ⟨b, h1, h2⟩ := C41_equal rc m.hi m'.hi m.hs m'.hs m.hS hh eq
    refine ⟨.bool b, by rw [h1]; rfl, S, b, hS0, rfl, ?_⟩
    rw [h2, e1, e2, m.lst, m'.lst]
    cases S with
    | hash _ _ _ => exact absurd rfl (hh _ _ _)
    | ord _ _ => rfl
    | seq => rfl
    | rnd => rfl
  cases S with
  | hash g e hf =>
    obtain ⟨rfl, er, hv⟩ := q
    obtain ⟨b, h1, h2⟩ := C25_containers_equal rc m.hi m'.hi m.hs m'.hs m.hS m'.hS er hv
    refine ⟨.bool b, by rw [h1]; rfl, _, b, hS0, rfl, ?_⟩
    rw [h2, e1, e2, m.lst, m'.lst]
    exact ⟨sameUpTo_perm (m.perm.map _) (m'.perm.map _), sameUpTo_perm (m.perm.symm.map _) (m'.perm.symm.map _)⟩
  | ord _ _ => exact nh (fun _ _ _ h => nomatch h) (m.same trivial) (m'.same q)
  | seq => exact nh (fun _ _ _ h => nomatch h) (m.same trivial) (m'.same q)
  | rnd => exact nh (fun _ _ _ h => nomatch h) (m.same trivial) (m'.same q)

theorem ask_less (f : Follows w a) {lt : V → V → Bool} (h : a.Fine (.less lt i k j l)) : ∃ r, w.ask (.less lt i k j l) = some r ∧ a.Says (.less lt i k j l) r := by
  obtain ⟨S, T, ⟨xs, hS⟩, fS, ⟨zs, hT⟩, fT⟩ := h
  obtain ⟨c, L, ys, m⟩ := meets f hS
  obtain ⟨d, L', ts, m'⟩ := meets f hT
  obtain rfl := m.same fS
  obtain rfl := m'.same fT
  have e1 : ys.map w.m.val = ys.map a.val := List.map_congr_left fun z hz => (m.val z hz).symm
  have e2 : ts.map w.m.val = ts.map a.val := List.map_congr_left fun z hz => (m'.val z hz).symm
  obtain ⟨b, h1, h2⟩ := C41_less f.reach.1 m.hi m'.hi m.hs m'.hs lt
  show ∃ r, (w.indexLt lt i k j l).map _ = some r ∧ _
  refine ⟨.bool b, by rw [h1]; rfl, b, rfl, ?_⟩
  rw [h2, e1, e2, m.lst, m'.lst]

theorem ask_size (f : Follows w a) (h : i < a.boxes.length) : w.ask (.size i) = some (.num (a.list i 0).length) := by
  obtain ⟨rc, A⟩ := f.reach
  obtain ⟨c, hi⟩ : ∃ c, w.cs[i]? = some c := ⟨_, List.getElem?_eq_getElem (by rw [← A.len]; exact h)⟩
  have hs := seqs_head rc.inv hi
  obtain ⟨b, hb, Lk⟩ := A.box hi
  obtain ⟨L, hL, -⟩ := rc.inv.seq hi hs
  have ha : c.asked[0]? = some L.spec := by
    unfold Container.asked
    rw [List.getElem?_map, hL]; rfl
  obtain ⟨xs, hx⟩ := Lk.index' ha
  have hidx : a.index i 0 = some (L.spec, xs) := by unfold State.index; rw [hb]; exact hx
  obtain ⟨c', L', ys, m⟩ := meets f hidx
  unfold World.ask
  simp only
  rw [m.hi, Option.map_some, m.cnt, m.lst, m.perm.length_eq]

theorem ask_value (f : Follows w a) {x : Id} (h : a.Fine (.value x)) : w.ask (.value x) = some (.value (a.val x)) := by
  obtain ⟨rc, A⟩ := f.reach
  have hx : x ∈ w.m.cons := by
    rcases h with ⟨i, k, h⟩ | h
    · cases hq : a.index i k with
      | none => unfold State.list at h; rw [hq] at h; exact absurd h List.not_mem_nil
      | some p =>
        obtain ⟨S, xs⟩ := p
        obtain ⟨c, L, ys, m⟩ := meets f hq
        rw [m.lst] at h
        obtain ⟨-, -, -, h3, -⟩ := rc.inv.seq m.hi m.hs
        exact (rc.inv.facts m.hi).2.2.2.2.1 x (h3.mem_iff.1 (m.perm.mem_iff.2 h))
    · rw [A.hs] at h
      refine rc.inv.cons.mem_iff.2 (List.mem_append_right _ ?_)
      unfold handled
      simpa using h
  unfold World.ask World.read
  simp only
  rw [if_pos hx, Option.map_some, A.val x hx]

end MI.Ideal
