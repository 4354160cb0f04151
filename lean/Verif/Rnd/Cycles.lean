import Verif.Rnd.Lemmas
import Mathlib.Data.Nat.ModEq
import Mathlib.Data.Fintype.EquivFin
import Mathlib.Tactic.Ring
/-! Helper lemmas: the permutation cycles of a rotation. -/
namespace MI.Rnd
open MI

/-- The `r`-th slot of the cycle starting at `i`. -/
def cyc (n m i r : Nat) : Nat := (i + r * m) % n

theorem cyc_lt {n m i r : Nat} (hn : 0 < n) : cyc n m i r < n := Nat.mod_lt _ hn

theorem cyc_step {n m i r : Nat} (hn : 0 < n) (hm : m ≤ n) :
    (if cyc n m i r < n - m then cyc n m i r + m else cyc n m i r - (n - m)) = cyc n m i (r + 1) := by
  have h1 : cyc n m i (r + 1) = (cyc n m i r + m) % n := by
    unfold cyc; rw [Nat.mod_add_mod]; congr 1; ring
  have h2 := cyc_lt (m := m) (i := i) (r := r) hn
  rw [h1]
  split
  · rw [Nat.mod_eq_of_lt (by omega)]
  · rw [Nat.mod_eq_sub_mod (by omega), Nat.mod_eq_of_lt (by omega)]; omega

theorem cyc_eq_iff {n m i r r' : Nat} (hr : r ≤ r') :
    cyc n m i r = cyc n m i r' ↔ n ∣ (r' - r) * m := by
  have e : i + r' * m = (i + r * m) + (r' - r) * m := by
    obtain ⟨d, rfl⟩ := Nat.exists_eq_add_of_le hr
    simp; ring
  unfold cyc
  constructor
  · intro h
    have : Nat.ModEq n (i + r * m) (i + r' * m) := h
    have := (Nat.modEq_iff_dvd' (by rw [e]; exact Nat.le_add_right _ _)).1 this
    rwa [e, Nat.add_sub_cancel_left] at this
  · intro h
    rw [e]
    obtain ⟨k, hk⟩ := h
    rw [hk]; simp

theorem dvd_mul_iff {n m d : Nat} (hn : 0 < n) : n ∣ d * m ↔ n / Nat.gcd n m ∣ d := by
  have hg : 0 < Nat.gcd n m := Nat.gcd_pos_of_pos_left _ hn
  have hc : Nat.Coprime (n / Nat.gcd n m) (m / Nat.gcd n m) := Nat.coprime_div_gcd_div_gcd hg
  have e1 : n = Nat.gcd n m * (n / Nat.gcd n m) := (Nat.mul_div_cancel' (Nat.gcd_dvd_left n m)).symm
  have e2 : d * m = Nat.gcd n m * (d * (m / Nat.gcd n m)) := by
    conv_lhs => rw [← Nat.mul_div_cancel' (Nat.gcd_dvd_right n m)]
    ring
  have e3 : n ∣ d * m ↔ Nat.gcd n m * (n / Nat.gcd n m) ∣ Nat.gcd n m * (d * (m / Nat.gcd n m)) := by
    rw [← e1, ← e2]
  rw [e3, Nat.mul_dvd_mul_iff_left hg]
  exact ⟨fun h => hc.dvd_of_dvd_mul_right h, fun h => Dvd.dvd.mul_right h _⟩

theorem cyc_inj {n m i r r' : Nat} (hn : 0 < n) (hr : r < n / Nat.gcd n m) (hr' : r' < n / Nat.gcd n m)
    (h : cyc n m i r = cyc n m i r') : r = r' := by
  rcases Nat.le_total r r' with hl | hl
  · have := (dvd_mul_iff hn).1 ((cyc_eq_iff hl).1 h)
    have := Nat.eq_zero_of_dvd_of_lt this (by omega)
    omega
  · have := (dvd_mul_iff hn).1 ((cyc_eq_iff hl).1 h.symm)
    have := Nat.eq_zero_of_dvd_of_lt this (by omega)
    omega

theorem cyc_zero {n m i : Nat} (hi : i < n) : cyc n m i 0 = i := by simp [cyc, Nat.mod_eq_of_lt hi]

theorem cyc_q {n m i : Nat} (hi : i < n) : cyc n m i (n / Nat.gcd n m) = i := by
  have hn : 0 < n := by omega
  have : cyc n m i 0 = cyc n m i (n / Nat.gcd n m) := (cyc_eq_iff (Nat.zero_le _)).2 ((dvd_mul_iff hn).2 (by simp))
  rw [← this, cyc_zero hi]

theorem cyc_mod {n m i r : Nat} (hi : i < Nat.gcd n m) : cyc n m i r % Nat.gcd n m = i := by
  unfold cyc
  rw [Nat.mod_mod_of_dvd _ (Nat.gcd_dvd_left n m)]
  obtain ⟨c, hc⟩ := Nat.gcd_dvd_right n m
  have : r * m = Nat.gcd n m * (r * c) := by conv_lhs => rw [hc]; ring_nf
                                             ring
  rw [this, Nat.add_mul_mod_self_left, Nat.mod_eq_of_lt hi]

theorem cyc_cover {n m k : Nat} (hk : k < n) :
    ∃ r, r < n / Nat.gcd n m ∧ cyc n m (k % Nat.gcd n m) r = k := by
  have hn : 0 < n := by omega
  have hg : 0 < Nat.gcd n m := Nat.gcd_pos_of_pos_left _ hn
  have hq : 0 < n / Nat.gcd n m := Nat.div_pos (Nat.gcd_le_left _ hn) hg
  have hi : k % Nat.gcd n m < Nat.gcd n m := Nat.mod_lt _ hg
  have hlt : ∀ r, cyc n m (k % Nat.gcd n m) r / Nat.gcd n m < n / Nat.gcd n m := fun r =>
    Nat.div_lt_div_of_lt_of_dvd (Nat.gcd_dvd_left n m) (cyc_lt hn)
  let F : Fin (n / Nat.gcd n m) → Fin (n / Nat.gcd n m) := fun r => ⟨_, hlt r⟩
  have hF : Function.Injective F := by
    rintro ⟨a, ha⟩ ⟨b, hb⟩ hab
    have h1 : cyc n m (k % Nat.gcd n m) a / Nat.gcd n m = cyc n m (k % Nat.gcd n m) b / Nat.gcd n m := by
      simpa [F] using hab
    have h2 := cyc_mod (n := n) (m := m) (r := a) hi
    have h3 := cyc_mod (n := n) (m := m) (r := b) hi
    have : cyc n m (k % Nat.gcd n m) a = cyc n m (k % Nat.gcd n m) b := by
      rw [← Nat.div_add_mod (cyc n m (k % Nat.gcd n m) a) (Nat.gcd n m),
        ← Nat.div_add_mod (cyc n m (k % Nat.gcd n m) b) (Nat.gcd n m), h1, h2, h3]
    exact Fin.ext (cyc_inj hn ha hb this)
  obtain ⟨⟨r, hr⟩, hrr⟩ := (Finite.injective_iff_surjective.1 hF) ⟨k / Nat.gcd n m, Nat.div_lt_div_of_lt_of_dvd (Nat.gcd_dvd_left n m) hk⟩
  refine ⟨r, hr, ?_⟩
  have h1 : cyc n m (k % Nat.gcd n m) r / Nat.gcd n m = k / Nat.gcd n m := by simpa [F] using hrr
  have h2 := cyc_mod (n := n) (m := m) (r := r) hi
  rw [← Nat.div_add_mod (cyc n m (k % Nat.gcd n m) r) (Nat.gcd n m), h1, h2, Nat.div_add_mod]

/-- One cycle, started in its `t`-th slot. -/
theorem cycleGo_upd {b n m i : Nat} {A : Nat → Id} (hn : 0 < n) (hm : m ≤ n) (hi : i < n)
    (hA : ∀ k k', k < n → k' < n → A k = A k' → k = k') :
    ∀ (fuel : Nat) (s : Arr) (t : Nat), t < n / Nat.gcd n m → n / Nat.gcd n m ≤ fuel + t →
    (∀ r, t < r → r < n / Nat.gcd n m → s.arr (b + cyc n m i r) = A (cyc n m i r)) →
    ∃ s', cycleGo b (n - m) m i (A i) fuel s (cyc n m i t) = some s' ∧
      Upd s s' (fun j => ∃ r, t ≤ r ∧ r < n / Nat.gcd n m ∧ j = b + cyc n m i r) (fun j => A ((j - b + m) % n)) := by
  have hf : ∀ r, (b + cyc n m i r - b + m) % n = cyc n m i (r + 1) := by
    intro r
    unfold cyc; rw [Nat.add_sub_cancel_left, Nat.mod_add_mod]; congr 1; ring
  have fin : ∀ (s : Arr) (t : Nat), t + 1 = n / Nat.gcd n m →
      Upd s (s.put (b + cyc n m i t) (A i)) (fun j => ∃ r, t ≤ r ∧ r < n / Nat.gcd n m ∧ j = b + cyc n m i r)
        (fun j => A ((j - b + m) % n)) := by
    intro s t ht
    refine ((Upd.rfl' s s.arr).last (p := b + cyc n m i t) (v := A i) (by simp) (by simp)).congr ?_ ?_
    · intro j; constructor
      · rintro (rfl | h)
        · exact ⟨t, by omega, by omega, rfl⟩
        · exact h.elim
      · rintro ⟨r, h1, h2, rfl⟩
        have : r = t := by omega
        subst this; exact Or.inl rfl
    · rintro j (rfl | h)
      · rw [if_pos rfl, hf, ht, cyc_q hi]
      · exact h.elim
  have one : ∀ (s s' : Arr) (t : Nat), t + 1 < n / Nat.gcd n m →
      Upd (s.put (b + cyc n m i t) (A (cyc n m i (t + 1)))) s'
        (fun j => ∃ r, t + 1 ≤ r ∧ r < n / Nat.gcd n m ∧ j = b + cyc n m i r) (fun j => A ((j - b + m) % n)) →
      Upd s s' (fun j => ∃ r, t ≤ r ∧ r < n / Nat.gcd n m ∧ j = b + cyc n m i r) (fun j => A ((j - b + m) % n)) := by
    intro s s' t ht hu
    refine (hu.step ?_ ?_).congr ?_ ?_
    · rintro ⟨r, h1, h2, e⟩
      have := cyc_inj (m := m) (i := i) hn (r := t) (r' := r) (by omega) h2 (by omega)
      omega
    · rintro j ⟨r, h1, h2, rfl⟩ e
      simp only [hf] at e
      have e2 := hA _ _ (cyc_lt hn) (cyc_lt hn) e
      by_cases hr : r + 1 < n / Nat.gcd n m
      · have := cyc_inj hn hr (by omega) e2; omega
      · have : r + 1 = n / Nat.gcd n m := by omega
        rw [this, cyc_q hi] at e2
        have e3 : cyc n m i 0 = cyc n m i (t + 1) := by rw [cyc_zero hi]; exact e2
        have := cyc_inj hn (by omega) (by omega) e3; omega
    · intro j; constructor
      · rintro (rfl | ⟨r, h1, h2, rfl⟩)
        · exact ⟨t, by omega, by omega, rfl⟩
        · exact ⟨r, by omega, h2, rfl⟩
      · rintro ⟨r, h1, h2, rfl⟩
        by_cases hr : r = t
        · exact Or.inl (by rw [hr])
        · exact Or.inr ⟨r, by omega, h2, rfl⟩
    · intro j hj
      by_cases hjt : j = b + cyc n m i t
      · rw [if_pos hjt, hjt, hf]
      · rw [if_neg hjt]
  have stop : ∀ t, t < n / Nat.gcd n m → (cyc n m i (t + 1) = i ↔ t + 1 = n / Nat.gcd n m) := by
    intro t ht
    constructor
    · intro h
      by_contra hc
      have e3 : cyc n m i (t + 1) = cyc n m i 0 := by rw [cyc_zero hi]; exact h
      have := cyc_inj hn (by omega) (by omega) e3; omega
    · intro h; rw [h]; exact cyc_q hi
  have keep : ∀ (s : Arr) (t : Nat), (∀ r, t < r → r < n / Nat.gcd n m → s.arr (b + cyc n m i r) = A (cyc n m i r)) →
      ∀ (v : Id) r, t + 1 < r → r < n / Nat.gcd n m →
      (s.put (b + cyc n m i t) v).arr (b + cyc n m i r) = A (cyc n m i r) := by
    intro s t hs v r h1 h2
    rw [← hs r (by omega) h2]
    simp only [Arr.put]
    refine upd_other _ _ ?_
    intro e
    have := cyc_inj (m := m) (i := i) hn (r := r) (r' := t) h2 (by omega) (by omega)
    omega
  intro fuel
  induction fuel with
  | zero => intro s t h1 h2 _; omega
  | succ fuel ih =>
    intro s t ht hfuel hs
    unfold cycleGo
    simp only [cyc_step hn hm]
    by_cases h1 : t + 1 = n / Nat.gcd n m
    · rw [if_pos ((stop t ht).2 h1)]
      exact ⟨_, rfl, fin s t h1⟩
    · rw [if_neg (fun e => h1 ((stop t ht).1 e))]
      have hs1 : s.arr (b + cyc n m i (t + 1)) = A (cyc n m i (t + 1)) := hs _ (by omega) (by omega)
      rw [hs1]
      by_cases h2 : t + 1 + 1 = n / Nat.gcd n m
      · rw [if_pos ((stop (t + 1) (by omega)).2 h2)]
        exact ⟨_, rfl, one s _ t (by omega) (fin _ (t + 1) h2)⟩
      · rw [if_neg (fun e => h2 ((stop (t + 1) (by omega)).1 e))]
        have k1 := keep s t hs (A (cyc n m i (t + 1)))
        have hs2 : (s.put (b + cyc n m i t) (A (cyc n m i (t + 1)))).arr (b + cyc n m i (t + 1 + 1)) =
            A (cyc n m i (t + 1 + 1)) := k1 _ (by omega) (by omega)
        rw [hs2]
        have k2 := keep (s.put (b + cyc n m i t) (A (cyc n m i (t + 1)))) (t + 1) (fun r a b => k1 r (by omega) b)
          (A (cyc n m i (t + 1 + 1)))
        obtain ⟨s', e', u'⟩ := ih _ (t + 1 + 1) (by omega) (by omega) k2
        exact ⟨s', e', one s s' t (by omega) (one _ s' (t + 1) (by omega) u')⟩

/-- All cycles from the `i`-th on. -/
theorem cyclesGo_upd {b n m : Nat} {A : Nat → Id} (hn : 0 < n) (hm : m ≤ n)
    (hA : ∀ k k', k < n → k' < n → A k = A k' → k = k') :
    ∀ (r : Nat) (s : Arr) (i : Nat), i + r = Nat.gcd n m →
    (∀ k, k < n → i ≤ k % Nat.gcd n m → s.arr (b + k) = A k) →
    ∃ s', cyclesGo b n (n - m) m r s i = some s' ∧
      Upd s s' (fun j => ∃ k, k < n ∧ i ≤ k % Nat.gcd n m ∧ j = b + k) (fun j => A ((j - b + m) % n)) := by
  have hg : 0 < Nat.gcd n m := Nat.gcd_pos_of_pos_left _ hn
  have hgn : Nat.gcd n m ≤ n := Nat.gcd_le_left _ hn
  intro r
  induction r with
  | zero =>
    intro s i hi hs
    refine ⟨s, rfl, (Upd.rfl' s s.arr).congr ?_ (by simp)⟩
    intro j; constructor
    · exact False.elim
    · rintro ⟨k, hk, hk2, _⟩
      have := Nat.mod_lt k hg; omega
  | succ r ih =>
    intro s i hi hs
    have hig : i < Nat.gcd n m := by omega
    have hin : i < n := by omega
    have hq : 0 < n / Nat.gcd n m := Nat.div_pos hgn hg
    have hA0 : s.arr (b + i) = A i := hs i hin (by rw [Nat.mod_eq_of_lt hig])
    obtain ⟨s1, e1, u1⟩ := cycleGo_upd (b := b) (A := A) hn hm hin hA n s 0 hq
      (by simpa using Nat.div_le_self n (Nat.gcd n m))
      (fun t _ _ => hs _ (cyc_lt hn) (by rw [cyc_mod hig]))
    rw [cyc_zero hin] at e1
    have hD : ∀ j, (∃ t, 0 ≤ t ∧ t < n / Nat.gcd n m ∧ j = b + cyc n m i t) ↔
        ∃ k, k < n ∧ k % Nat.gcd n m = i ∧ j = b + k := by
      intro j; constructor
      · rintro ⟨t, _, _, rfl⟩; exact ⟨_, cyc_lt hn, cyc_mod hig, rfl⟩
      · rintro ⟨k, hk, rfl, rfl⟩
        obtain ⟨t, ht, e⟩ := cyc_cover (m := m) hk
        exact ⟨t, by omega, ht, by rw [e]⟩
    have u1' := u1.congr hD (fun _ _ => rfl)
    obtain ⟨s2, e2, u2⟩ := ih s1 (i + 1) (by omega) (by
      intro k hk hik
      rw [u1'.out]
      · exact hs k hk (by omega)
      · rintro ⟨k', h1, h2, h3⟩
        have : k = k' := by omega
        subst this; omega)
    refine ⟨s2, ?_, ?_⟩
    · simp only [cyclesGo, hA0, e1, e2]
    · have hc := u1'.comp u2 (by
        rintro j ⟨k, h1, h2, rfl⟩ ⟨k', h3, h4, h5⟩
        have : k = k' := by omega
        subst this; omega) (by
        rintro j j' ⟨k, h1, h2, rfl⟩ ⟨k', h3, h4, rfl⟩ e
        have e := hA _ _ (Nat.mod_lt _ hn) (Nat.mod_lt _ hn) e
        simp only [Nat.add_sub_cancel_left] at e
        have e' : Nat.ModEq n k k' := Nat.ModEq.add_right_cancel' m e
        have : k = k' := by
          unfold Nat.ModEq at e'
          rwa [Nat.mod_eq_of_lt h1, Nat.mod_eq_of_lt h3] at e'
        subst this; omega)
      refine hc.congr ?_ (fun _ _ => rfl)
      intro j; constructor
      · rintro (⟨k, h1, h2, rfl⟩ | ⟨k, h1, h2, rfl⟩)
        · exact ⟨k, h1, by omega, rfl⟩
        · exact ⟨k, h1, by omega, rfl⟩
      · rintro ⟨k, h1, h2, rfl⟩
        by_cases hk : k % Nat.gcd n m = i
        · exact Or.inl ⟨k, h1, hk, rfl⟩
        · exact Or.inr ⟨k, h1, by omega, rfl⟩

/-- The whole rotation of the slots `[b,b+n)` by `m`. -/
theorem rotate_upd {b n m : Nat} {s : Arr} (hm : m ≤ n)
    (hA : ∀ k k', k < n → k' < n → s.arr (b + k) = s.arr (b + k') → k = k') :
    ∃ s', cyclesGo b n (n - m) m (Nat.gcd n m) s 0 = some s' ∧
      Upd s s' (fun j => b ≤ j ∧ j < b + n) (fun j => s.arr (b + (j - b + m) % n)) := by
  rcases Nat.eq_zero_or_pos n with rfl | hn
  · have : m = 0 := by omega
    subst this
    refine ⟨s, rfl, (Upd.rfl' s s.arr).congr ?_ (by simp)⟩
    exact fun j => ⟨False.elim, fun hj => absurd hj (by show ¬ (_ ∧ _); omega)⟩
  · obtain ⟨s', e, u⟩ := cyclesGo_upd (b := b) (A := fun k => s.arr (b + k)) hn hm hA (Nat.gcd n m) s 0 (by omega)
      (fun _ _ _ => rfl)
    refine ⟨s', e, u.congr ?_ (fun _ _ => rfl)⟩
    intro j; constructor
    · rintro ⟨k, h1, _, rfl⟩; omega
    · rintro ⟨h1, h2⟩; exact ⟨j - b, by omega, by omega, by omega⟩

theorem rep_rotate {s : Arr} {hd : Id} {u x y v : List Id} (h : Rep s hd (u ++ x ++ y ++ v)) :
    ∃ s', cyclesGo u.length (x.length + y.length) y.length x.length (Nat.gcd (x.length + y.length) x.length) s 0 = some s' ∧
      Rep s' hd (u ++ y ++ x ++ v) := by
  have hl : (u ++ x ++ y ++ v).length = u.length + x.length + y.length + v.length := by simp [Nat.add_assoc]
  obtain ⟨s', e, hu⟩ := rotate_upd (b := u.length) (n := x.length + y.length) (m := x.length) (s := s) (by omega) (by
    intro k k' h1 h2 e
    have := h.inj (by rw [hl]; omega) (by rw [hl]; omega) e
    omega)
  have e2 : x.length + y.length - x.length = y.length := by omega
  rw [e2] at e
  refine ⟨s', e, h.of_upd hu (by simp; omega) ?_ ?_ ?_⟩
  · have p1 : (u ++ x ++ y ++ v ++ [hd]).Perm (u ++ y ++ x ++ v ++ [hd]) := by
      refine List.Perm.append_right _ (List.Perm.append_right _ ?_)
      rw [List.append_assoc, List.append_assoc]
      exact List.Perm.append_left _ List.perm_append_comm
    exact p1.nodup_iff.1 h.nodup
  · rintro j ⟨h1, h2⟩
    obtain ⟨k, rfl⟩ : ∃ k, j = u.length + k := ⟨j - u.length, by omega⟩
    simp only [Nat.add_sub_cancel_left]
    by_cases hk : k < y.length
    · rw [Nat.mod_eq_of_lt (by omega), h.arr (by rw [hl]; omega)]
      grind
    · rw [Nat.mod_eq_sub_mod (by omega), Nat.mod_eq_of_lt (by omega), h.arr (by rw [hl]; omega)]
      grind
  · intro j hj hD
    rw [hl] at hj
    by_cases hju : j < u.length
    · grind
    · have : u.length + x.length + y.length ≤ j := by
        by_contra hc; exact hD ⟨by omega, by omega⟩
      grind

end MI.Rnd
