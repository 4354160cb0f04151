import Verif.Ord.ActsSpec
import Verif.Ord.StepsLemmas
import Verif.Ord.PointLemmas
/-! Rounds of the operations of the interface (helper lemmas). -/
namespace MI.Ord
open MI

variable {K : Type} {key : Id → K} {lt : K → K → Bool} {h : Heap} {hd : Id} {xs : List Id} {n : Nat}

/-- The logarithm by which numbers of rounds are bounded. -/
def lg (n : Nat) : Nat := Nat.log2 (n + 1)

theorem lg_mono {a b : Nat} (hab : a ≤ b) : lg a ≤ lg b := by
  unfold lg
  exact (Nat.le_log2 (by omega)).2 (Nat.le_trans (Nat.log2_self_le (by omega)) (by omega))

theorem descendS_le {q : Id → Bool} (t : T) : ∀ {p y : Id} {n : Nat} {s : Side} {r : Id × Side} {w : Nat}, At h p t → 0 ∉ t.ids →
    descendS q h n t.root y s = some (r, w) → w ≤ t.height := by
  induction t with
  | nil =>
    intro p y n s r w _ _ e
    cases n with
    | zero => cases e
    | succ n =>
      rw [root_nil, descendS, if_pos rfl] at e
      cases e; simp
  | node c s l x r ihl ihr =>
    intro p y n s' o w ha h0 e
    obtain ⟨_, _, _, hl, hr, al, ar⟩ := ha
    cases n with
    | zero => cases e
    | succ n =>
      simp only [T.ids, List.mem_append, List.mem_cons, not_or] at h0
      have hx0 : x ≠ 0 := fun h => h0.2.1 h.symm
      rw [root_node, descendS, if_neg hx0, hl, hr] at e
      simp only [T.height]
      by_cases hq : q x = true
      · rw [if_pos hq] at e
        cases e' : descendS q h n l.root x .left with
        | none => rw [e'] at e; cases e
        | some o =>
          obtain ⟨o, w'⟩ := o
          rw [e'] at e
          cases e
          have := ihl al h0.1 e'
          omega
      · rw [if_neg hq] at e
        cases e' : descendS q h n r.root x .right with
        | none => rw [e'] at e; cases e
        | some o =>
          obtain ⟨o, w'⟩ := o
          rw [e'] at e
          cases e
          have := ihr ar h0.2.2 e'
          omega

theorem descendS_log {q : Id → Bool} {s : Side} {r : Id × Side} {w : Nat} (hr : Rep h hd xs)
    (e : descendS q h n (h.parent hd) hd s = some (r, w)) : w ≤ 2 * lg xs.length := by
  obtain ⟨t, R, hb, hs, rfl⟩ := hr
  rw [R.shape.root] at e
  have := descendS_le t R.shape.at' (fun q => R.shape.nz (by simp [q])) e
  have := rb_height hb
  unfold lg; omega

/-- `--it` from anywhere but `begin()`. -/
theorem dec_le {y z : Id} {w : Nat} (hr : Rep h hd xs) (hn : xs.length + 3 ≤ n) (hy : y ∈ xs ++ [hd]) (hf : y ≠ h.left hd)
    (e : decrementS h n y = some (z, w)) : w ≤ 2 * lg xs.length := by
  rcases List.mem_append.1 hy with hy | hy
  · obtain ⟨u, v, rfl⟩ := List.append_of_mem hy
    have hu : u ≠ [] := by
      rintro rfl
      exact hf (rep_first hr).symm
    obtain ⟨w', e', q⟩ := decrementS_le hr hu hn
    rw [e'] at e; cases e; exact q
  · simp only [List.mem_singleton] at hy
    subst hy
    have hx : xs ≠ [] := by
      rintro rfl
      exact hf (rep_first hr).symm
    rw [decrementS_end hr hx] at e
    cases e; omega

theorem inc_le {y z : Id} {w : Nat} (hr : Rep h hd xs) (hn : xs.length + 3 ≤ n) (hy : y ∈ xs)
    (e : incrementS h n y = some (z, w)) : w ≤ 2 * lg xs.length := by
  obtain ⟨u, v, rfl⟩ := List.append_of_mem hy
  obtain ⟨w', e', q⟩ := incrementS_le hr hn
  rw [e'] at e; cases e; exact q

theorem linkPointUS_le (sw : StrictWeak lt) {k : K} {p : Point} {w : Nat} (hr : Rep h hd xs) (hs : SortedBy key lt xs) (hn : xs.length + 3 ≤ n)
    (e : linkPointUS key lt n h hd k = some (p, w)) : w ≤ 4 * lg xs.length := by
  unfold linkPointUS at e
  cases e' : descendS (fun x => lt k (key x)) h n (h.parent hd) hd .left with
  | none => rw [e'] at e; cases e
  | some o =>
    obtain ⟨⟨y, s⟩, w1⟩ := o
    have hw := descendS_log hr e'
    obtain ⟨u, v, rfl, hu, hv⟩ := mono_split xs (mono_upper sw hs k)
    obtain ⟨pos, side, ed, hp, hL, -⟩ := descend_point hr hn hu hv
    rw [← descendS_fst, e'] at ed
    simp only [Option.map_some, Option.some.injEq, Prod.mk.injEq] at ed
    obtain ⟨rfl, rfl⟩ := ed
    rw [e'] at e
    simp only at e
    split at e
    · cases e; omega
    · rename_i q
      by_cases q' : s = .left
      · simp only [if_pos q'] at e
        cases e2 : decrementS h n y with
        | none => rw [e2] at e; cases e
        | some o =>
          obtain ⟨z, w2⟩ := o
          rw [e2] at e
          cases e
          have hy : y ∈ (u ++ v) ++ [hd] := by
            rw [hL q']
            cases v with
            | nil => simp [hdOr]
            | cons b v => simp [hdOr]
          have := dec_le hr hn hy (fun e => q ⟨q', e⟩) e2
          omega
      · simp only [if_neg q'] at e
        cases e; omega

theorem linkPointNS_le {k : K} {p : Point} {w : Nat} (hr : Rep h hd xs)
    (e : linkPointNS key lt n h hd k = some (p, w)) : w ≤ 4 * lg xs.length := by
  unfold linkPointNS at e
  cases e' : descendS (fun x => lt k (key x)) h n (h.parent hd) hd .left with
  | none => rw [e'] at e; cases e
  | some o =>
    obtain ⟨⟨y, s⟩, w1⟩ := o
    have hw := descendS_log hr e'
    rw [e'] at e
    cases e; omega

theorem lowerLinkPointS_le {k : K} {p : Point} {w : Nat} (hr : Rep h hd xs)
    (e : lowerLinkPointS key lt n h hd k = some (p, w)) : w ≤ 4 * lg xs.length := by
  unfold lowerLinkPointS at e
  cases e' : descendS (fun x => !lt (key x) k) h n (h.parent hd) hd .left with
  | none => rw [e'] at e; cases e
  | some o =>
    obtain ⟨⟨y, s⟩, w1⟩ := o
    have hw := descendS_log hr e'
    rw [e'] at e
    cases e; omega

theorem more_le {α : Type} {a w b c : Nat} {p : α} {o : Option (α × Nat)} (ha : a ≤ b) (ho : ∀ p w, o = some (p, w) → w ≤ c)
    (e : more a o = some (p, w)) : w ≤ b + c := by
  rcases o with _ | ⟨q, d⟩
  · cases e
  · cases e
    have := ho _ _ rfl
    omega

theorem pointS_le (sw : StrictWeak lt) {u : Bool} {k : K} {hint : Option Id} {p : Point} {w : Nat} (hr : Rep h hd xs) (hs : SortedBy key lt xs)
    (hn : xs.length + 3 ≤ n) (hh : ∀ q, hint = some q → q ∈ xs ++ [hd]) (e : pointS key lt u n h hd k hint = some (p, w)) :
    w ≤ 6 * lg xs.length := by
  have A : ∀ {p w}, linkPointUS key lt n h hd k = some (p, w) → w ≤ 4 * lg xs.length := fun e => linkPointUS_le sw hr hs hn e
  have B : ∀ {p w}, linkPointNS key lt n h hd k = some (p, w) → w ≤ 4 * lg xs.length := fun e => linkPointNS_le hr e
  have C : ∀ {p w}, lowerLinkPointS key lt n h hd k = some (p, w) → w ≤ 4 * lg xs.length := fun e => lowerLinkPointS_le hr e
  cases hint with
  | none =>
    cases u with
    | true => have := A e; omega
    | false => have := B e; omega
  | some position =>
    have hpos := hh position rfl
    cases u with
    | true =>
      have e : hintedPointUS key lt n h hd k position = some (p, w) := e
      unfold hintedPointUS at e
      split at e
      · split at e
        · cases e; omega
        · have := A e; omega
      · rename_i hf
        split at e
        · split at e
          · cases e; omega
          · have := A e; omega
        · cases e2 : decrementS h n position with
          | none => rw [e2] at e; cases e
          | some o =>
            obtain ⟨z, w2⟩ := o
            have hw := dec_le hr hn hpos hf e2
            rw [e2] at e
            simp only at e
            split at e
            · split at e <;> (cases e; omega)
            · have := more_le hw (fun _ _ => A) e; omega
    | false =>
      have e : hintedPointNS key lt n h hd k position = some (p, w) := e
      unfold hintedPointNS at e
      split at e
      · split at e
        · cases e; omega
        · have := C e; omega
      · rename_i hf
        split at e
        · split at e
          · cases e; omega
          · have := B e; omega
        · cases e2 : decrementS h n position with
          | none => rw [e2] at e; cases e
          | some o =>
            obtain ⟨z, w2⟩ := o
            have hw := dec_le hr hn hpos hf e2
            rw [e2] at e
            simp only at e
            split at e
            · split at e
              · split at e <;> (cases e; omega)
              · have := more_le hw (fun _ _ => C) e; omega
            · have := more_le hw (fun _ _ => B) e; omega

theorem inPlaceS_le {u : Bool} {k : K} {x : Id} {b : Bool} {w : Nat} (hr : Rep h hd xs) (hn : xs.length + 3 ≤ n) (hx : x ∈ xs)
    (e : inPlaceS key lt u n h hd k x = some (b, w)) : w ≤ 4 * lg xs.length := by
  unfold inPlaceS at e
  have tail : ∀ {w1 : Nat} {p : Id → Bool}, w1 ≤ 2 * lg xs.length → (match incrementS h n x with
      | none => none
      | some (y, w') => some (decide (y = hd) || p y, w1 + w')) = some (b, w) → w ≤ 4 * lg xs.length := by
    intro w1 p h1 e
    cases e2 : incrementS h n x with
    | none => rw [e2] at e; cases e
    | some o =>
      obtain ⟨z, w2⟩ := o
      have hw := inc_le hr hn hx e2
      rw [e2] at e
      cases e; omega
  by_cases q : x ≠ h.left hd
  · simp only [if_pos q] at e
    cases e2 : decrementS h n x with
    | none => rw [e2] at e; cases e
    | some o =>
      obtain ⟨z, w2⟩ := o
      have hw := dec_le hr hn (List.mem_append_left _ hx) q e2
      rw [e2] at e
      simp only [Option.map_some] at e
      cases u with
      | true =>
        simp only at e
        cases c : lt (key z) k with
        | false => rw [c] at e; cases e; omega
        | true => rw [c] at e; exact tail hw e
      | false =>
        simp only at e
        cases c : !lt k (key z) with
        | false => rw [c] at e; cases e; omega
        | true => rw [c] at e; exact tail hw e
  · simp only [if_neg q] at e
    cases u with
    | true => exact tail (Nat.zero_le _) e
    | false => exact tail (Nat.zero_le _) e

/-! ## What the operations do -/

/-- `k` may stand between `a` and `b`. -/
def FitsU (lt : K → K → Bool) (u : Bool) (key : Id → K) (k : K) (a b : List Id) : Prop :=
  (∀ z ∈ a, mayPrecede lt u (key z) k) ∧ (∀ z ∈ b, mayPrecede lt u k (key z))

theorem OrderedBy.sorted (sw : StrictWeak lt) {u : Bool} (ho : OrderedBy lt u key xs) : SortedBy key lt xs := by
  cases u with
  | true => exact ho.imp (fun h => sw.asymm h)
  | false => exact ho

theorem OrderedBy.sub {u : Bool} {ys : List Id} (ho : OrderedBy lt u key xs) (hs : ys.Sublist xs) : OrderedBy lt u key ys := List.Pairwise.sublist hs ho

theorem OrderedBy.congr {u : Bool} {key' : Id → K} (ho : OrderedBy lt u key xs) (hk : ∀ x ∈ xs, key' x = key x) : OrderedBy lt u key' xs := by
  refine List.Pairwise.imp_of_mem (fun {a b} ha hb h => ?_) ho
  rw [hk a ha, hk b hb]; exact h

theorem OrderedBy.insert {u : Bool} {x : Id} {k : K} {a b : List Id} (ho : OrderedBy lt u key (a ++ b)) (hx : x ∉ a ++ b)
    (hf : FitsU lt u key k a b) : OrderedBy lt u (upd key x k) (a ++ x :: b) := by
  have hk : ∀ z ∈ a ++ b, upd key x k z = key z := fun z hz => upd_other _ _ (fun e => hx (e ▸ hz))
  have ho' := ho.congr (key' := upd key x k) hk
  obtain ⟨h1, h2, h3⟩ := List.pairwise_append.1 ho'
  refine List.pairwise_append.2 ⟨h1, List.pairwise_cons.2 ⟨fun z hz => ?_, h2⟩, fun y hy z hz => ?_⟩
  · rw [upd_same, hk z (by simp [hz])]
    exact hf.2 z hz
  · rcases List.mem_cons.1 hz with rfl | hz
    · rw [upd_same, hk y (by simp [hy])]
      exact hf.1 y hy
    · exact h3 y hy z hz

theorem some_fst {α : Type} {o : Option (α × Nat)} {a : α} (e : o.map (·.1) = some a) : ∃ w, o = some (a, w) := by
  rcases o with _ | ⟨b, w⟩
  · cases e
  · cases e; exact ⟨w, rfl⟩

theorem split_hint {q : Id} (hq : q ∈ xs ++ [hd]) : ∃ b a, xs = b ++ a ∧ q = hdOr hd a := by
  rcases List.mem_append.1 hq with hq | hq
  · obtain ⟨b, a, rfl⟩ := List.append_of_mem hq
    exact ⟨b, q :: a, rfl, rfl⟩
  · simp at hq
    exact ⟨xs, [], by simp, hq⟩

/-- Looking for a link point: accepted at a place where the key may stand, or rejected by an equivalent element. -/
theorem pointS_spec (sw : StrictWeak lt) {u : Bool} {k : K} {hint : Option Id} (hr : Rep h hd xs) (ho : OrderedBy lt u key xs)
    (hn : xs.length + 3 ≤ n) (hh : ∀ q, hint = some q → q ∈ xs ++ [hd]) :
    ∃ p w, pointS key lt u n h hd k hint = some (p, w) ∧ w ≤ 6 * lg xs.length ∧
      ((∃ side pos a b, p = .accept side pos ∧ xs = a ++ b ∧ PointAt h hd side pos a b ∧ FitsU lt u key k a b) ∨ (∃ q, p = .reject q ∧ q ∈ xs)) := by
  have hs := ho.sorted sw
  have key' : ∃ p, (if u then pointU key lt n h hd k hint else pointN key lt n h hd k hint) = some p ∧
      ((∃ side pos a b, p = .accept side pos ∧ xs = a ++ b ∧ PointAt h hd side pos a b ∧ FitsU lt u key k a b) ∨ (∃ q, p = .reject q ∧ q ∈ xs)) := by
    cases u with
    | true =>
      have : UniquePoint key lt h hd xs k (pointU key lt n h hd k hint) := by
        cases hint with
        | none => exact linkPointU_spec sw hr hs hn k
        | some q =>
          obtain ⟨b, a, rfl, rfl⟩ := split_hint (hh q rfl)
          exact hintedPointU_spec sw hr hs hn k
      rcases this with ⟨side, pos, a, b, e, e1, e2, e3⟩ | ⟨p, hp, e, -⟩
      · exact ⟨_, e, Or.inl ⟨side, pos, a, b, rfl, e1, e2, e3⟩⟩
      · exact ⟨_, e, Or.inr ⟨p, rfl, hp⟩⟩
    | false =>
      cases hint with
      | none =>
        obtain ⟨side, pos, a, b, e, e1, e2, e3, e4⟩ := linkPointN_spec sw hr hs hn k
        exact ⟨_, e, Or.inl ⟨side, pos, a, b, rfl, e1, e2, e3, fun z hz => sw.asymm (e4 z hz)⟩⟩
      | some q =>
        obtain ⟨b, a, rfl, rfl⟩ := split_hint (hh q rfl)
        obtain ⟨side, pos, c, d, e, e1, e2, e3, -⟩ := hintedPointN_spec sw hr hs hn k
        exact ⟨_, e, Or.inl ⟨side, pos, c, d, rfl, e1, e2, e3⟩⟩
  obtain ⟨p, e, q⟩ := key'
  rw [← pointS_fst] at e
  obtain ⟨w, e⟩ := some_fst e
  exact ⟨p, w, e, pointS_le sw hr hs hn hh e, q⟩

theorem inPlaceS_spec (sw : StrictWeak lt) {u : Bool} {k : K} {x : Id} {a b : List Id} (hr : Rep h hd (a ++ x :: b)) (ho : OrderedBy lt u key (a ++ b))
    (hn : (a ++ x :: b).length + 3 ≤ n) :
    ∃ r w, inPlaceS key lt u n h hd k x = some (r, w) ∧ w ≤ 4 * lg (a ++ x :: b).length ∧ (r = true ↔ FitsU lt u key k a b) := by
  have hs := ho.sorted sw
  have key' : ∃ r, (if u then inPlaceU key lt n h hd k x else inPlaceN key lt n h hd k x) = some r ∧ (r = true ↔ FitsU lt u key k a b) := by
    cases u with
    | true => exact inPlaceU_spec sw hr hs hn k
    | false => exact inPlaceN_spec sw hr hs hn k
  obtain ⟨r, e, q⟩ := key'
  rw [← inPlaceS_fst] at e
  obtain ⟨w, e⟩ := some_fst e
  exact ⟨r, w, e, inPlaceS_le hr hn (by simp) e, q⟩

theorem restoreS_spec {x : Id} {u v : List Id} {P : Nat} (hr : RepP h hd (u ++ v) P) (hx : x ∉ hd :: (u ++ v)) (hx0 : x ≠ 0)
    (hN : (u ++ v).length + 3 ≤ n) :
    ∃ h' w f P', restoreS n h x (hdOr hd v) hd = some (h', ⟨w, f⟩) ∧ RepP h' hd (u ++ x :: v) P' ∧ f + P' ≤ P + 5 ∧
      f ≤ 2 * lg (u ++ v).length + 1 ∧ w ≤ 2 * lg (u ++ v).length := by
  have hnz := rep_nz hr.rep
  have hnd := rep_nodup hr.rep
  have hd0 : hd ≠ 0 := fun e => hnz (by simp [e])
  unfold restoreS
  cases v with
  | nil =>
    have e : hdOr hd [] = hd := rfl
    rw [e]
    rw [List.append_nil] at hr hx hN ⊢
    rcases List.eq_nil_or_concat' u with rfl | ⟨w, z, rfl⟩
    · rw [if_pos (Or.inr (by rw [rep_first hr.rep]; rfl))]
      obtain ⟨h', f, P', a, b, c, d⟩ := linkP_at (u := []) (v := []) hr (pointAt_empty hr.rep) (by simpa using hx) hx0 (by simpa using hN)
      exact ⟨h', 0, f, P', by rw [a]; rfl, b, c, d, Nat.zero_le _⟩
    · have hf := rep_first hr.rep
      have hne : ¬ (h.left hd = 0 ∨ h.left hd = hd) := by
        rw [hf]
        rintro (q | q)
        · apply hnz
          cases w with
          | nil => have : z = 0 := q; subst this; simp
          | cons b w => have : b = 0 := q; subst this; simp
        · have hm : hd ∉ w ++ [z] := by have := (List.nodup_cons.1 (rep_nodup hr.rep)).1; exact this
          apply hm
          cases w with
          | nil => have : z = hd := q; subst this; simp
          | cons b w => have : b = hd := q; subst this; simp
      rw [if_neg hne, decrementS_end hr.rep (by simp), List.getLastD_concat]
      have hp := pointAt_right (v := []) (by simpa using hr.rep) (last_right hr.rep)
      obtain ⟨h', f, P', a, b, c, d⟩ := linkP_at (by simpa using hr) hp (by simpa using hx) hx0 (by simpa using hN)
      exact ⟨h', 0, f, P', by simp only [a, Option.map_some], by simpa using b, c, by simpa [lg] using d, Nat.zero_le _⟩
  | cons p v =>
    have e : hdOr hd (p :: v) = p := rfl
    rw [e]
    by_cases hp : h.left p = 0
    · rw [if_pos (Or.inl hp)]
      obtain ⟨h', f, P', a, b, c, d⟩ := linkP_at hr (pointAt_left hr.rep hp) hx hx0 hN
      exact ⟨h', 0, f, P', by rw [a]; rfl, b, c, d, Nat.zero_le _⟩
    · have hne : ¬ (h.left p = 0 ∨ h.left p = hd) := by
        rintro (q | q)
        · exact hp q
        · obtain ⟨t, R, hb, hs, hi⟩ := hr.rep
          obtain ⟨k, c, s, l, r, rfl⟩ := exists_zip (x := p) t (by rw [hi]; simp)
          rw [R.shape.read.2.2.2.1] at q hp
          have hm := root_mem hp
          have := (List.nodup_cons.1 (shape_plug.1 R.shape).nodup).1
          apply this
          rw [← q]; simp [T.ids, hm]
      have hu : u ≠ [] := by rintro rfl; exact hp (first_left hr.rep)
      obtain ⟨w, e1, hw⟩ := decrementS_le hr.rep hu hN
      rw [if_neg hne, e1]
      rcases List.eq_nil_or_concat' u with rfl | ⟨y, z, rfl⟩
      · exact absurd rfl hu
      · rw [List.getLastD_concat]
        have hz : h.right z = 0 := by
          by_contra hz
          have e : (y ++ [z]) ++ p :: v = y ++ z :: p :: v := by simp
          have hr' := hr.rep
          rw [e] at hr'
          exact hp (neighbours hr' hz)
        have e2 : (y ++ [z]) ++ p :: v = y ++ z :: p :: v := by simp
        have hr' := hr.rep
        rw [e2] at hr'
        obtain ⟨h', f, P', a, b, c, d⟩ := linkP_at hr (pointAt_right hr' hz) hx hx0 hN
        exact ⟨h', w, f, P', by simp only [a, Option.map_some], b, c, d, hw⟩

end MI.Ord
