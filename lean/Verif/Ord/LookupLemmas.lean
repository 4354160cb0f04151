import Verif.Ord.RankLemmas
import Verif.Ord.PointLemmas
import Verif.Spec.Lookup
/-! Lookups on represented trees (helper lemmas). -/
namespace MI.Ord
open MI

section
variable {K CK : Type} {key : Id → K} {lt : K → K → Bool} {ltk : K → CK → Bool} {gtk : CK → K → Bool}

theorem find?_split {q : Id → Bool} {u v : List Id} (hu : ∀ a ∈ u, q a = false) (hv : ∀ a ∈ v, q a = true) (d : Id) :
    ((u ++ v).find? q).getD d = hdOr d v := by
  rw [List.find?_append, List.find?_eq_none.2 (by intro x hx; simp [hu x hx])]
  cases v with
  | nil => rfl
  | cons a v => simp [hdOr, hv a]

/-- Three-way split of a sorted list by a compatible key. -/
theorem compat_split (ce : CompatExt lt ltk gtk) {xs : List Id} (hs : SortedBy key lt xs) (x : CK) :
    ∃ u m v, xs = u ++ (m ++ v) ∧ (∀ a ∈ u, ltk (key a) x = true ∧ gtk x (key a) = false) ∧
      (∀ a ∈ m, ltk (key a) x = false ∧ gtk x (key a) = false) ∧ (∀ a ∈ v, ltk (key a) x = false ∧ gtk x (key a) = true) := by
  obtain ⟨u, w, rfl, hu, hw⟩ := mono_split (q := fun a => !ltk (key a) x) xs (hs.imp (fun {a b} h1 h2 => by
    simp only [Bool.not_eq_true'] at *
    exact ce.lower x _ _ h2 h1))
  obtain ⟨m, v, rfl, hm, hv⟩ := mono_split (q := fun a => gtk x (key a)) w ((List.pairwise_append.1 hs).2.1.imp (fun {a b} h1 h2 => by
    by_contra q
    have := ce.upper x _ _ (by simpa using q) h1
    rw [this] at h2; cases h2))
  have flip : ∀ a, ltk (key a) x = true → gtk x (key a) = false := by
    intro a ha; by_contra q
    have := ce.asymm _ _ (by simpa using q : gtk x (key a) = true)
    rw [this] at ha; cases ha
  refine ⟨u, m, v, rfl, fun a ha => ?_, fun a ha => ?_, fun a ha => ?_⟩
  · have : ltk (key a) x = true := by simpa using hu a ha
    exact ⟨this, flip a this⟩
  · exact ⟨by simpa using hw a (by simp [ha]), hm a ha⟩
  · exact ⟨by simpa using hw a (by simp [ha]), hv a ha⟩

/-- Split by two bounds. -/
theorem bound_split {lo up : K → Bool} (hlo : LowerBounder lt lo) (hup : UpperBounder lt up) {xs : List Id} (hs : SortedBy key lt xs) :
    ∃ u m v, xs = u ++ (m ++ v) ∧ (∀ a ∈ u, lo (key a) = false) ∧
      (∀ a ∈ m, lo (key a) = true ∧ up (key a) = true) ∧ (∀ a ∈ v, lo (key a) = true ∧ up (key a) = false) := by
  obtain ⟨u, w, rfl, hu, hw⟩ := mono_split (q := fun a => lo (key a)) xs (hs.imp (fun {a b} h1 h2 => hlo _ _ h2 h1))
  obtain ⟨m, v, rfl, hm, hv⟩ := mono_split (q := fun a => !up (key a)) w ((List.pairwise_append.1 hs).2.1.imp (fun {a b} h1 h2 => by
    simp only [Bool.not_eq_true'] at *
    by_contra q
    have := hup _ _ (by simpa using q) h1
    rw [this] at h2; cases h2))
  refine ⟨u, m, v, rfl, hu, fun a ha => ⟨hw a (by simp [ha]), by simpa using hm a ha⟩, fun a ha => ⟨hw a (by simp [ha]), by simpa using hv a ha⟩⟩

theorem hdOr_eq_hd {hd : Id} {u v : List Id} (hnd : (hd :: (u ++ v)).Nodup) : hdOr hd v = hd ↔ v = [] := by
  cases v with
  | nil => simp [hdOr]
  | cons a v =>
    have : a ≠ hd := by rintro rfl; simp at hnd
    simp [hdOr, this]

variable {h : Heap} {hd : Id} {xs : List Id} {n : Nat}

theorem bound_on {q : Id → Bool} (hr : Rep h hd xs) (hn : 2 * Nat.log2 (xs.length + 1) + 2 ≤ n) {u v : List Id} (e : xs = u ++ v)
    (hu : ∀ a ∈ u, q a = false) (hv : ∀ a ∈ v, q a = true) : boundLoop q h n (h.parent hd) hd = some (hdOr hd v) := by
  obtain ⟨t, R, hb, hs, rfl⟩ := hr
  rw [R.shape.root]
  exact boundLoop_spec t R.shape.at' (fun e => R.shape.nz (by simp [e])) (by have := rb_height hb; omega) e hu hv

theorem range_on {b a lo up : Id → Bool} (hr : Rep h hd xs) (hn : 2 * Nat.log2 (xs.length + 1) + 2 ≤ n) {u m v : List Id}
    (e : xs = u ++ (m ++ v)) (hu : ∀ x ∈ u, b x = true ∧ lo x = false)
    (hm : ∀ x ∈ m, b x = false ∧ a x = false ∧ lo x = true ∧ up x = false)
    (hv : ∀ x ∈ v, b x = false ∧ a x = true ∧ up x = true) :
    rangeLoop b a lo up h n (h.parent hd) hd = some (hdOr hd (m ++ v), hdOr hd v) := by
  obtain ⟨t, R, hb, hs, rfl⟩ := hr
  rw [R.shape.root]
  exact rangeLoop_spec t R.shape.at' (fun e => R.shape.nz (by simp [e])) (by have := rb_height hb; omega) e hu hm hv

theorem boundRank_on {q : Id → Bool} (hr : Rep h hd xs) (hn : 2 * Nat.log2 (xs.length + 1) + 2 ≤ n) {u v : List Id} (e : xs = u ++ v)
    (hu : ∀ a ∈ u, q a = false) (hv : ∀ a ∈ v, q a = true) : boundRank q n h (h.parent hd) hd = some u.length := by
  obtain ⟨t, R, hb, hs, rfl⟩ := hr
  rw [R.shape.root]
  exact boundRank_spec R.shape.at' (fun e => R.shape.nz (by simp [e])) hs (by have := rb_height hb; omega) e hu hv

theorem root_size (hr : Rep h hd xs) (hx : xs ≠ []) : h.parent hd ≠ 0 ∧ h.size (h.parent hd) = xs.length := by
  obtain ⟨t, R, hb, hs, rfl⟩ := hr
  have h0 : 0 ∉ t.ids := fun e => R.shape.nz (by simp [e])
  have ht : t ≠ .nil := by rintro rfl; exact hx rfl
  have hr0 : t.root ≠ 0 := by rw [ne_eq, root_zero h0]; exact ht
  rw [R.shape.root]
  have := nodeSize_len R.shape.at' h0 hs
  unfold nodeSize at this
  rw [if_pos hr0] at this
  exact ⟨hr0, this⟩

theorem rankLoop_on {q : Id → Bool} (hr : Rep h hd xs) (hx : xs ≠ []) (hn : 2 * Nat.log2 (xs.length + 1) + 2 ≤ n) {u v : List Id} (e : xs = u ++ v)
    (hu : ∀ a ∈ u, q a = false) (hv : ∀ a ∈ v, q a = true) :
    rankLoop q h n (h.parent hd) hd xs.length = some (u.length, hdOr hd v) := by
  obtain ⟨t, R, hb, hs, rfl⟩ := hr
  rw [R.shape.root]
  rw [rankLoop_spec t R.shape.at' (fun e => R.shape.nz (by simp [e])) hs (by rintro rfl; exact hx rfl) (by have := rb_height hb; omega) e hu hv (Nat.le_refl _)]
  simp [e]

theorem rangeRank_on {b a lo up : Id → Bool} (hr : Rep h hd xs) (hx : xs ≠ []) (hn : 2 * Nat.log2 (xs.length + 1) + 2 ≤ n) {u m v : List Id}
    (e : xs = u ++ (m ++ v)) (hu : ∀ x ∈ u, b x = true ∧ lo x = false)
    (hm : ∀ x ∈ m, b x = false ∧ a x = false ∧ lo x = true ∧ up x = false)
    (hv : ∀ x ∈ v, b x = false ∧ a x = true ∧ up x = true) :
    rangeRankLoop b a lo up h n (h.parent hd) hd xs.length = some (u.length, (u ++ m).length) := by
  obtain ⟨t, R, hb, hs, rfl⟩ := hr
  rw [R.shape.root]
  rw [rangeRankLoop_spec t R.shape.at' (fun e => R.shape.nz (by simp [e])) hs (by rintro rfl; exact hx rfl)
    (by have := rb_height hb; omega) e hu hm hv (Nat.le_refl _)]
  simp only [e, List.length_append, Option.some.injEq, Prod.mk.injEq]
  omega

theorem distance_spec {N : Nat} : ∀ {m : List Id} {u v : List Id} {k : Nat}, Rep h hd (u ++ (m ++ v)) → (u ++ (m ++ v)).length + 3 ≤ N →
    m.length + 1 ≤ k → distance h N k (hdOr hd (m ++ v)) (hdOr hd v) = some m.length := by
  intro m
  induction m with
  | nil =>
    intro u v k _ _ hk
    cases k with
    | zero => simp at hk
    | succ k => simp [distance]
  | cons a m ih =>
    intro u v k hr hN hk
    cases k with
    | zero => simp at hk
    | succ k =>
      have hnd := rep_nodup hr
      have hne : hdOr hd (a :: m ++ v) ≠ hdOr hd v := by
        cases v with
        | nil => intro e; have : a = hd := e; subst this; simp at hnd
        | cons b v =>
          intro e; have : a = b := e; subst this
          have := (List.nodup_append.1 (List.nodup_cons.1 hnd).2).2.1
          simp at this
      have hr' : Rep h hd (u ++ a :: (m ++ v)) := hr
      have hi := increment_spec hr' (N := N) (by simpa using hN)
      rw [distance, if_neg hne]
      have : hdOr hd (a :: m ++ v) = a := rfl
      rw [this, hi]
      simp only
      rw [ih (u := u ++ [a]) (by simpa using hr') (by simp at hN ⊢; omega) (by simpa using hk)]
      simp

end
end MI.Ord
