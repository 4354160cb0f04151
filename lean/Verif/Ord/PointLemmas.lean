import Verif.Ord.SearchLemmas
/-! Link points, in-place checks (helper lemmas). -/
namespace MI.Ord
open MI

section
variable {K : Type} {key : Id → K} {lt : K → K → Bool}

/-- The elements of an index are sorted by key. -/
abbrev SortedBy (key : Id → K) (lt : K → K → Bool) (xs : List Id) : Prop := Sorted (fun a b => lt (key a) (key b)) xs

theorem mono_upper (sw : StrictWeak lt) {xs : List Id} (hs : SortedBy key lt xs) (k : K) :
    xs.Pairwise (fun a b => lt k (key a) = true → lt k (key b) = true) :=
  hs.imp (fun h1 h2 => sw.lt_le_trans h2 h1)

theorem mono_lower (sw : StrictWeak lt) {xs : List Id} (hs : SortedBy key lt xs) (k : K) :
    xs.Pairwise (fun a b => (!lt (key a) k) = true → (!lt (key b) k) = true) := by
  refine hs.imp (fun h1 h2 => ?_)
  simp only [Bool.not_eq_true'] at *
  exact sw.le_trans h2 h1

/-- Sorted, and `k` may stand between `u` and `v`. -/
def Fits (key : Id → K) (lt : K → K → Bool) (k : K) (u v : List Id) : Prop :=
  (∀ a ∈ u, lt k (key a) = false) ∧ (∀ a ∈ v, lt (key a) k = false)

theorem linkPointN_spec (sw : StrictWeak lt) {h : Heap} {hd : Id} {xs : List Id} {n : Nat} (hr : Rep h hd xs)
    (hs : SortedBy key lt xs) (hn : xs.length + 3 ≤ n) (k : K) :
    ∃ side pos u v, linkPointN key lt n h hd k = some (.accept side pos) ∧ xs = u ++ v ∧ PointAt h hd side pos u v ∧
      (∀ a ∈ u, lt k (key a) = false) ∧ (∀ a ∈ v, lt k (key a) = true) := by
  obtain ⟨u, v, rfl, hu, hv⟩ := mono_split xs (mono_upper sw hs k)
  obtain ⟨pos, side, e, hp, _, _⟩ := descend_point hr hn hu hv
  refine ⟨side, pos, u, v, ?_, rfl, hp, hu, hv⟩
  unfold linkPointN; rw [e]

theorem lowerLinkPoint_spec (sw : StrictWeak lt) {h : Heap} {hd : Id} {xs : List Id} {n : Nat} (hr : Rep h hd xs)
    (hs : SortedBy key lt xs) (hn : xs.length + 3 ≤ n) (k : K) :
    ∃ side pos u v, lowerLinkPoint key lt n h hd k = some (.accept side pos) ∧ xs = u ++ v ∧ PointAt h hd side pos u v ∧
      (∀ a ∈ u, lt (key a) k = true) ∧ (∀ a ∈ v, lt (key a) k = false) := by
  obtain ⟨u, v, rfl, hu, hv⟩ := mono_split xs (mono_lower sw hs k)
  obtain ⟨pos, side, e, hp, _, _⟩ := descend_point hr hn hu hv
  refine ⟨side, pos, u, v, ?_, rfl, hp, fun a ha => by simpa using hu a ha, fun a ha => by simpa using hv a ha⟩
  unfold lowerLinkPoint; rw [e]

/-- What a point search for a unique index returns. -/
def UniquePoint (key : Id → K) (lt : K → K → Bool) (h : Heap) (hd : Id) (xs : List Id) (k : K) (r : Option Point) : Prop :=
  (∃ side pos u v, r = some (.accept side pos) ∧ xs = u ++ v ∧ PointAt h hd side pos u v ∧
      (∀ a ∈ u, lt (key a) k = true) ∧ (∀ a ∈ v, lt k (key a) = true)) ∨
  (∃ p ∈ xs, r = some (.reject p) ∧ equivOf lt (key p) k = true)

theorem linkPointU_spec (sw : StrictWeak lt) {h : Heap} {hd : Id} {xs : List Id} {n : Nat} (hr : Rep h hd xs)
    (hs : SortedBy key lt xs) (hn : xs.length + 3 ≤ n) (k : K) :
    UniquePoint key lt h hd xs k (linkPointU key lt n h hd k) := by
  obtain ⟨u, v, rfl, hu, hv⟩ := mono_split xs (mono_upper sw hs k)
  obtain ⟨pos, side, e, hp, hL, hR⟩ := descend_point hr hn hu hv
  unfold linkPointU
  rw [e]
  simp only
  have hfirst := rep_first hr
  have hnd := rep_nodup hr
  rcases List.eq_nil_or_concat' u with rfl | ⟨w, z, rfl⟩
  · -- nothing smaller
    have hsl : side = .left := by
      cases side with
      | left => rfl
      | right => exact absurd rfl (hR rfl).1
    subst hsl
    left
    refine ⟨.left, pos, [], v, ?_, rfl, hp, by simp, hv⟩
    rw [if_pos ⟨rfl, by rw [hL rfl, hfirst]; rfl⟩]
  · have hz : (if side = .left then decrement h n pos else some pos) = some z ∧ ¬ (side = .left ∧ pos = h.left hd) := by
      cases side with
      | left =>
        have hp := hL rfl
        constructor
        · rw [if_pos rfl, hp]
          cases v with
          | nil =>
            rw [List.append_nil] at hr
            rw [show hdOr hd [] = hd from rfl, decrement_end hr (by simp), List.getLastD_concat]
          | cons b v =>
            rw [show hdOr hd (b :: v) = b from rfl, decrement_spec hr (by simp) hn, List.getLastD_concat]
        · rintro ⟨_, e⟩
          rw [hp, hfirst] at e
          cases v with
          | nil =>
            cases w with
            | nil => have : hd = z := e; subst this; simp at hnd
            | cons c w => have : hd = c := e; subst this; simp at hnd
          | cons b v =>
            cases w with
            | nil => have : b = z := e; subst this; simp at hnd
            | cons c w => have : b = c := e; subst this; simp at hnd
      | right =>
        constructor
        · rw [if_neg (by simp), (hR rfl).2, List.getLastD_concat]
        · rintro ⟨e, _⟩; cases e
    rw [if_neg hz.2, hz.1]
    simp only
    by_cases hc : lt (key z) k = true
    · left
      refine ⟨side, pos, w ++ [z], v, by rw [if_pos hc], rfl, hp, ?_, hv⟩
      intro a ha
      rcases List.mem_append.1 ha with ha | ha
      · have hs' := (List.pairwise_append.1 (List.pairwise_append.1 hs).1).2.2 a ha z (by simp)
        exact sw.le_lt_trans hs' hc
      · simp at ha; subst ha; exact hc
    · right
      refine ⟨z, by simp, by rw [if_neg hc], ?_⟩
      rw [StrictWeak.equiv_iff]
      exact ⟨by simpa using hc, hu z (by simp)⟩

theorem hintedPointU_spec (sw : StrictWeak lt) {h : Heap} {hd : Id} {b a : List Id} {n : Nat} (hr : Rep h hd (b ++ a))
    (hs : SortedBy key lt (b ++ a)) (hn : (b ++ a).length + 3 ≤ n) (k : K) :
    UniquePoint key lt h hd (b ++ a) k (hintedPointU key lt n h hd k (hdOr hd a)) := by
  have hfirst := rep_first hr
  have hlast := rep_last hr
  have hnd := rep_nodup hr
  have hU := linkPointU_spec sw hr hs hn k
  unfold hintedPointU
  by_cases hb : b = []
  · subst hb
    rw [if_pos (by rw [hfirst]; rfl)]
    split
    · rename_i hc
      have ha : a ≠ [] := by rintro rfl; exact hc.1 ((rep_root hr).2 rfl)
      cases a with
      | nil => exact absurd rfl ha
      | cons p a =>
        have hc2 : lt k (key p) = true := hc.2
        left
        refine ⟨.left, p, [], p :: a, rfl, rfl, pointAt_left (u := []) hr (first_left hr), by simp, ?_⟩
        intro c hcm
        rcases List.mem_cons.1 hcm with rfl | hcm
        · exact hc2
        · exact sw.lt_le_trans hc2 ((List.pairwise_cons.1 hs).1 c hcm)
    · exact hU
  · have hne : hdOr hd a ≠ h.left hd := by
      rw [hfirst]
      cases b with
      | nil => exact absurd rfl hb
      | cons c b =>
        cases a with
        | nil => intro e; have : hd = c := e; subst this; simp at hnd
        | cons p a => intro e; have : p = c := e; subst this; simp at hnd
    rw [if_neg hne]
    obtain ⟨w, z, rfl⟩ := (List.eq_nil_or_concat' b).resolve_left hb
    cases a with
    | nil =>
      rw [List.append_nil] at *
      rw [if_pos (show hdOr hd [] = hd from rfl), hlast, List.getLastD_concat]
      split
      · rename_i hc
        left
        refine ⟨.right, z, w ++ [z], [], rfl, by simp, pointAt_right hr (last_right hr), ?_, by simp⟩
        intro a ha
        rcases List.mem_append.1 ha with ha | ha
        · exact sw.le_lt_trans ((List.pairwise_append.1 hs).2.2 a ha z (by simp)) hc
        · simp at ha; subst ha; exact hc
      · exact hU
    | cons p a =>
      have hph : p ≠ hd := by rintro rfl; simp at hnd
      rw [if_neg (show hdOr hd (p :: a) ≠ hd from hph), show hdOr hd (p :: a) = p from rfl, decrement_spec hr (by simp) hn,
        List.getLastD_concat]
      simp only
      split
      · rename_i hc
        left
        have e : (w ++ [z]) ++ p :: a = w ++ z :: p :: a := by simp
        have hr' := hr
        rw [e] at hr'
        obtain ⟨hp1, hp2⟩ := pointAt_between hr'
        have fitu : ∀ c ∈ w ++ [z], lt (key c) k = true := by
          intro c hcm
          rcases List.mem_append.1 hcm with hcm | hcm
          · exact sw.le_lt_trans ((List.pairwise_append.1 (List.pairwise_append.1 hs).1).2.2 c hcm z (by simp)) hc.1
          · simp at hcm; subst hcm; exact hc.1
        have fitv : ∀ c ∈ p :: a, lt k (key c) = true := by
          intro c hcm
          rcases List.mem_cons.1 hcm with rfl | hcm
          · exact hc.2
          · exact sw.lt_le_trans hc.2 ((List.pairwise_cons.1 (List.pairwise_append.1 hs).2.1).1 c hcm)
        split
        · rename_i hr0
          exact ⟨.right, z, w ++ [z], p :: a, rfl, rfl, hp1 hr0, fitu, fitv⟩
        · rename_i hr0
          exact ⟨.left, p, w ++ [z], p :: a, rfl, rfl, hp2 p a rfl hr0, fitu, fitv⟩
      · exact hU

/-- Result of a hinted search for a non-unique index: a sorted position, the hint itself if that is one, else the nearest. -/
theorem hintedPointN_spec (sw : StrictWeak lt) {h : Heap} {hd : Id} {b a : List Id} {n : Nat} (hr : Rep h hd (b ++ a))
    (hs : SortedBy key lt (b ++ a)) (hn : (b ++ a).length + 3 ≤ n) (k : K) :
    ∃ side pos u v, hintedPointN key lt n h hd k (hdOr hd a) = some (.accept side pos) ∧ b ++ a = u ++ v ∧
      PointAt h hd side pos u v ∧ Fits key lt k u v ∧
      ((u = b ∧ v = a) ∨
       (b.length < u.length ∧ ∀ c ∈ u, lt (key c) k = true) ∨
       (u.length < b.length ∧ ∀ c ∈ v, lt k (key c) = true)) := by
  have hfirst := rep_first hr
  have hlast := rep_last hr
  have hnd := rep_nodup hr
  -- the two ordinary searches
  have hlow : (∃ c ∈ a, lt (key c) k = true) ∨ b ++ a = [] → ∃ side pos u v, lowerLinkPoint key lt n h hd k = some (.accept side pos) ∧
      b ++ a = u ++ v ∧ PointAt h hd side pos u v ∧ Fits key lt k u v ∧ ((u = b ∧ v = a) ∨ (b.length < u.length ∧ ∀ c ∈ u, lt (key c) k = true)) := by
    intro hc
    obtain ⟨side, pos, u, v, e1, e2, e3, e4, e5⟩ := lowerLinkPoint_spec sw hr hs hn k
    refine ⟨side, pos, u, v, e1, e2, e3, ⟨fun c hc => sw.asymm (e4 c hc), e5⟩, ?_⟩
    rcases hc with ⟨c, hc, hck⟩ | hc
    · right
      refine ⟨?_, e4⟩
      rcases List.append_eq_append_iff.1 e2 with ⟨a', rfl, q⟩ | ⟨c', _, q⟩
      · cases a' with
        | nil =>
          rw [List.nil_append] at q
          subst q
          rw [e5 c hc] at hck; cases hck
        | cons => simp
      · rw [e5 c (by rw [q]; simp [hc])] at hck; cases hck
    · left
      rw [hc] at e2
      simp only [List.append_eq_nil_iff] at hc
      have := List.append_eq_nil_iff.1 e2.symm
      exact ⟨by rw [this.1, hc.1], by rw [this.2, hc.2]⟩
  have hupp : (∃ c ∈ b, lt k (key c) = true) → ∃ side pos u v, linkPointN key lt n h hd k = some (.accept side pos) ∧
      b ++ a = u ++ v ∧ PointAt h hd side pos u v ∧ Fits key lt k u v ∧ (u.length < b.length ∧ ∀ c ∈ v, lt k (key c) = true) := by
    rintro ⟨c, hc, hck⟩
    obtain ⟨side, pos, u, v, e1, e2, e3, e4, e5⟩ := linkPointN_spec sw hr hs hn k
    refine ⟨side, pos, u, v, e1, e2, e3, ⟨e4, fun c hc => sw.asymm (e5 c hc)⟩, ?_, e5⟩
    rcases List.append_eq_append_iff.1 e2 with ⟨a', rfl, q⟩ | ⟨c', q, _⟩
    · rw [e4 c (by simp [hc])] at hck; cases hck
    · cases c' with
      | nil =>
        rw [List.append_nil] at q
        rw [e4 c (by rw [← q]; exact hc)] at hck; cases hck
      | cons d c' => rw [q]; simp
  unfold hintedPointN
  by_cases hb : b = []
  · subst hb
    rw [if_pos (by rw [hfirst]; rfl)]
    split
    · rename_i hc
      have ha : a ≠ [] := by rintro rfl; exact hc.1 ((rep_root hr).2 rfl)
      cases a with
      | nil => exact absurd rfl ha
      | cons p a =>
        have hc2 : lt (key p) k = false := hc.2
        refine ⟨.left, p, [], p :: a, rfl, rfl, pointAt_left (u := []) hr (first_left hr), ⟨by simp, ?_⟩, Or.inl ⟨rfl, rfl⟩⟩
        intro c hcm
        rcases List.mem_cons.1 hcm with rfl | hcm
        · exact hc2
        · exact sw.le_trans hc2 ((List.pairwise_cons.1 hs).1 c hcm)
    · rename_i hc
      obtain ⟨side, pos, u, v, e1, e2, e3, e4, e5⟩ := hlow (by
        cases a with
        | nil => right; rfl
        | cons p a =>
          left
          refine ⟨p, by simp, ?_⟩
          by_contra q
          exact hc ⟨by rw [ne_eq, rep_root hr]; simp, by have q2 : lt (key p) k = false := by simpa using q
                                                         exact q2⟩)
      exact ⟨side, pos, u, v, e1, e2, e3, e4, e5.elim Or.inl (fun q => Or.inr (Or.inl q))⟩
  · have hne : hdOr hd a ≠ h.left hd := by
      rw [hfirst]
      cases b with
      | nil => exact absurd rfl hb
      | cons c b =>
        cases a with
        | nil => intro e; have : hd = c := e; subst this; simp at hnd
        | cons p a => intro e; have : p = c := e; subst this; simp at hnd
    rw [if_neg hne]
    obtain ⟨w, z, rfl⟩ := (List.eq_nil_or_concat' b).resolve_left hb
    cases a with
    | nil =>
      rw [List.append_nil] at *
      rw [if_pos (show hdOr hd [] = hd from rfl), hlast, List.getLastD_concat]
      split
      · rename_i hc
        refine ⟨.right, z, w ++ [z], [], rfl, by simp, pointAt_right hr (last_right hr), ⟨?_, by simp⟩, Or.inl ⟨rfl, rfl⟩⟩
        intro a ha
        rcases List.mem_append.1 ha with ha | ha
        · exact sw.le_trans ((List.pairwise_append.1 hs).2.2 a ha z (by simp)) hc
        · simp at ha; subst ha; exact hc
      · rename_i hc
        obtain ⟨side, pos, u, v, e1, e2, e3, e4, e5⟩ := hupp ⟨z, by simp, by simpa using hc⟩
        exact ⟨side, pos, u, v, e1, e2, e3, e4, Or.inr (Or.inr e5)⟩
    | cons p a =>
      have hph : p ≠ hd := by rintro rfl; simp at hnd
      rw [if_neg (show hdOr hd (p :: a) ≠ hd from hph), show hdOr hd (p :: a) = p from rfl, decrement_spec hr (by simp) hn,
        List.getLastD_concat]
      simp only
      split
      · rename_i hc
        split
        · rename_i hc2
          have e : (w ++ [z]) ++ p :: a = w ++ z :: p :: a := by simp
          have hr' := hr
          rw [e] at hr'
          obtain ⟨hp1, hp2⟩ := pointAt_between hr'
          have fit : Fits key lt k (w ++ [z]) (p :: a) := by
            constructor
            · intro c hcm
              rcases List.mem_append.1 hcm with hcm | hcm
              · exact sw.le_trans ((List.pairwise_append.1 (List.pairwise_append.1 hs).1).2.2 c hcm z (by simp)) hc
              · simp at hcm; subst hcm; exact hc
            · intro c hcm
              rcases List.mem_cons.1 hcm with rfl | hcm
              · exact hc2
              · exact sw.le_trans hc2 ((List.pairwise_cons.1 (List.pairwise_append.1 hs).2.1).1 c hcm)
          split
          · rename_i hr0
            exact ⟨.right, z, w ++ [z], p :: a, rfl, rfl, hp1 hr0, fit, Or.inl ⟨rfl, rfl⟩⟩
          · rename_i hr0
            exact ⟨.left, p, w ++ [z], p :: a, rfl, rfl, hp2 p a rfl hr0, fit, Or.inl ⟨rfl, rfl⟩⟩
        · rename_i hc2
          obtain ⟨side, pos, u, v, e1, e2, e3, e4, e5⟩ := hlow (Or.inl ⟨p, by simp, by simpa using hc2⟩)
          exact ⟨side, pos, u, v, e1, e2, e3, e4, e5.elim Or.inl (fun q => Or.inr (Or.inl q))⟩
      · rename_i hc
        obtain ⟨side, pos, u, v, e1, e2, e3, e4, e5⟩ := hupp ⟨z, by simp, by simpa using hc⟩
        exact ⟨side, pos, u, v, e1, e2, e3, e4, Or.inr (Or.inr e5)⟩

/-! ## In-place checks -/

theorem inPlace_aux {h : Heap} {hd x : Id} {u v : List Id} {n : Nat} (hr : Rep h hd (u ++ x :: v))
    (hn : (u ++ x :: v).length + 3 ≤ n) (p q : Id → Bool) :
    (match (if x ≠ h.left hd then (decrement h n x).map p else some true) with
      | none => none
      | some false => some false
      | some true =>
        match increment h n x with
        | none => none
        | some y => some (decide (y = hd) || q y)) =
    some ((decide (u = []) || p (u.getLastD hd)) && (decide (v = []) || q (hdOr hd v))) := by
  have hfirst := rep_first hr
  have hnd := rep_nodup hr
  have hinc := increment_spec hr hn
  have hv : decide (hdOr hd v = hd) = decide (v = []) := by
    cases v with
    | nil => simp [hdOr]
    | cons b v =>
      have : b ≠ hd := by rintro rfl; simp at hnd
      simp [hdOr, this]
  by_cases hu : u = []
  · subst hu
    have : ¬ (x ≠ h.left hd) := by rw [hfirst]; simp [hdOr]
    rw [if_neg this, hinc]
    simp [hv]
  · have : x ≠ h.left hd := by
      rw [hfirst]
      cases u with
      | nil => exact absurd rfl hu
      | cons c u => intro e; have : x = c := e; subst this; simp at hnd
    rw [if_pos this, decrement_spec hr hu hn, hinc]
    simp only [Option.map_some, hu, decide_false, Bool.false_or]
    cases p (u.getLastD hd) with
    | false => simp
    | true => simp [hv]

theorem getLastD_mem {d : Id} {u : List Id} (h : u ≠ []) : u.getLastD d ∈ u := by
  obtain ⟨w, z, rfl⟩ := (List.eq_nil_or_concat' u).resolve_left h
  rw [List.getLastD_concat]; simp

theorem inPlaceU_spec (sw : StrictWeak lt) {h : Heap} {hd x : Id} {u v : List Id} {n : Nat} (hr : Rep h hd (u ++ x :: v))
    (hs : SortedBy key lt (u ++ v)) (hn : (u ++ x :: v).length + 3 ≤ n) (k : K) :
    ∃ r, inPlaceU key lt n h hd k x = some r ∧
      (r = true ↔ (∀ a ∈ u, lt (key a) k = true) ∧ (∀ a ∈ v, lt k (key a) = true)) := by
  refine ⟨_, inPlace_aux hr hn (fun y => lt (key y) k) (fun y => lt k (key y)), ?_⟩
  simp only [Bool.and_eq_true, Bool.or_eq_true, decide_eq_true_eq]
  obtain ⟨hsu, hsv, hsuv⟩ := List.pairwise_append.1 hs
  constructor
  · rintro ⟨h1, h2⟩
    constructor
    · intro a ha
      obtain ⟨w, z, rfl⟩ := (List.eq_nil_or_concat' u).resolve_left (by rintro rfl; simp at ha)
      rw [List.getLastD_concat] at h1
      have h1 : lt (key z) k = true := h1.resolve_left (by simp)
      rcases List.mem_append.1 ha with ha | ha
      · exact sw.le_lt_trans ((List.pairwise_append.1 hsu).2.2 a ha z (by simp)) h1
      · simp at ha; subst ha; exact h1
    · intro a ha
      cases v with
      | nil => simp at ha
      | cons b v =>
        have h2 : lt k (key b) = true := h2.resolve_left (by simp)
        rcases List.mem_cons.1 ha with rfl | ha
        · exact h2
        · exact sw.lt_le_trans h2 ((List.pairwise_cons.1 hsv).1 a ha)
  · rintro ⟨h1, h2⟩
    constructor
    · by_cases q : u = []
      · exact Or.inl q
      · exact Or.inr (h1 _ (getLastD_mem q))
    · cases v with
      | nil => exact Or.inl rfl
      | cons b v => exact Or.inr (h2 b (by simp))

theorem inPlaceN_spec (sw : StrictWeak lt) {h : Heap} {hd x : Id} {u v : List Id} {n : Nat} (hr : Rep h hd (u ++ x :: v))
    (hs : SortedBy key lt (u ++ v)) (hn : (u ++ x :: v).length + 3 ≤ n) (k : K) :
    ∃ r, inPlaceN key lt n h hd k x = some r ∧ (r = true ↔ Fits key lt k u v) := by
  refine ⟨_, inPlace_aux hr hn (fun y => !lt k (key y)) (fun y => !lt (key y) k), ?_⟩
  simp only [Bool.and_eq_true, Bool.or_eq_true, decide_eq_true_eq, Bool.not_eq_true']
  obtain ⟨hsu, hsv, hsuv⟩ := List.pairwise_append.1 hs
  constructor
  · rintro ⟨h1, h2⟩
    constructor
    · intro a ha
      obtain ⟨w, z, rfl⟩ := (List.eq_nil_or_concat' u).resolve_left (by rintro rfl; simp at ha)
      rw [List.getLastD_concat] at h1
      have h1 : lt k (key z) = false := h1.resolve_left (by simp)
      rcases List.mem_append.1 ha with ha | ha
      · exact sw.le_trans ((List.pairwise_append.1 hsu).2.2 a ha z (by simp)) h1
      · simp at ha; subst ha; exact h1
    · intro a ha
      cases v with
      | nil => simp at ha
      | cons b v =>
        have h2 : lt (key b) k = false := h2.resolve_left (by simp)
        rcases List.mem_cons.1 ha with rfl | ha
        · exact h2
        · exact sw.le_trans h2 ((List.pairwise_cons.1 hsv).1 a ha)
  · rintro ⟨h1, h2⟩
    constructor
    · by_cases q : u = []
      · exact Or.inl q
      · exact Or.inr (h1 _ (getLastD_mem q))
    · cases v with
      | nil => exact Or.inl rfl
      | cons b v => exact Or.inr (h2 b (by simp))

end
end MI.Ord
