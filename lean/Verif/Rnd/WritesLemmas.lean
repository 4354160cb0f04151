import Verif.Rnd.Writes
import Verif.Rnd.PriceSpec
import Verif.Rnd.History
/-! Helper lemmas: the counted functions do what the functions of the model do, and how many slots they write. -/
namespace MI.Rnd
open MI

theorem extractGoW_eq (n : Nat) : ∀ (s : Arr) (c x : Nat), extractGoW n (s, c) x = (extractGo n s x, c + n) := by
  induction n with
  | zero => intro s c x; rfl
  | succ n ih => intro s c x; simp only [extractGoW, extractGo, W.put]; rw [ih]; congr 1; omega

theorem extractW_eq (s : Arr) (c x pend : Nat) : extractW (s, c) x pend = (extract s x pend, c + (pend - 1 - x)) := extractGoW_eq _ _ _ _

theorem shiftGoW_eq (n : Nat) : ∀ (s : Arr) (c x : Nat), shiftGoW n (s, c) x = (shiftGo n s x, c + n) := by
  induction n with
  | zero => intro s c x; rfl
  | succ n ih => intro s c x; simp only [shiftGoW, shiftGo, W.put]; rw [ih]; congr 1; omega

theorem relocate1W_eq (s : Arr) (c pos x : Nat) :
    relocate1W (s, c) pos x = (relocate1 s pos x, c + (if x < pos then pos - x else x - pos + 1)) := by
  simp only [relocate1W, relocate1, extractW_eq, shiftGoW_eq, W.put]
  split
  · congr 1; omega
  · congr 1

theorem transferGoW_eq (src : Nat → Id) (n : Nat) : ∀ (s : Arr) (c p : Nat), transferGoW src n (s, c) p = (transferGo src n s p, c + n) := by
  induction n with
  | zero => intro s c x; rfl
  | succ n ih => intro s c x; simp only [transferGoW, transferGo, W.put]; rw [ih]; congr 1; omega

theorem reverseGoW_eq (n : Nat) : ∀ (s : Arr) (c p q : Nat), reverseGoW n (s, c) p q = (reverseGo n s p q, c + 2 * n) := by
  induction n with
  | zero => intro s c x q; rfl
  | succ n ih => intro s c x q; simp only [reverseGoW, reverseGo, W.swapSlots]; rw [ih]; congr 1; omega

theorem rearrangeGoW_eq (vs : List Id) : ∀ (s : Arr) (c p : Nat), rearrangeGoW vs (s, c) p = (rearrangeGo vs s p, c + 2 * vs.length) := by
  induction vs with
  | nil => intro s c p; rfl
  | cons v vs ih => intro s c x; simp only [rearrangeGoW, rearrangeGo, W.swapSlots]; rw [ih]; congr 1; simp only [List.length_cons]; omega

theorem writeBackW_eq (vs : List Id) : ∀ (s : Arr) (c p : Nat), writeBackW vs (s, c) p = (writeBack vs s p, c + vs.length) := by
  induction vs with
  | nil => intro s c p; rfl
  | cons v vs ih => intro s c x; simp only [writeBackW, writeBack, W.put]; rw [ih]; congr 1; simp only [List.length_cons]; omega

theorem nullOutW_eq (nul : Id) (vs : List Id) : ∀ (s : Arr) (c : Nat), nullOutW nul vs (s, c) = (nullOut nul vs s, c + vs.length) := by
  induction vs with
  | nil => intro s c; rfl
  | cons v vs ih => intro s c; simp only [nullOutW, nullOut]; rw [ih]; congr 1; simp only [List.length_cons]; omega

theorem setCapacityW_eq (junk : Nat → Id) (s : Arr) (c k : Nat) : setCapacityW junk (s, c) k = (setCapacity junk s k, c + (s.size + 1)) := by
  simp only [setCapacityW, setCapacity, transferGoW_eq]

theorem reserveW_eq (junk : Nat → Id) (s : Arr) (c k : Nat) :
    reserveW junk (s, c) k = (reserve junk s k, c + (if k > s.cap then s.size + 1 else 0)) := by
  simp only [reserveW, reserve, setCapacityW_eq]; split <;> rfl

theorem roomForOneW_eq (junk : Nat → Id) (s : Arr) (c : Nat) :
    roomForOneW junk (s, c) = (roomForOne junk s, c + (if s.size = s.cap then s.size + 1 else 0)) := by
  simp only [roomForOneW, roomForOne, reserveW_eq]
  split
  · rw [if_pos (show (if s.cap ≤ 10 then 15 else s.cap + s.cap / 2) > s.cap by split <;> omega)]
  · rfl

theorem shrinkToFitW_eq (junk : Nat → Id) (s : Arr) (c : Nat) :
    shrinkToFitW junk (s, c) = (shrinkToFit junk s, c + (if s.cap > s.size then s.size + 1 else 0)) := by
  simp only [shrinkToFitW, shrinkToFit, setCapacityW_eq]; split <;> rfl

theorem pushBackW_eq (s : Arr) (c : Nat) (x : Id) : pushBackW (s, c) x = (pushBack s x).map (·, c + 2) := by
  simp only [pushBackW, pushBack, W.put]; split <;> rfl

theorem eraseW_eq (s : Arr) (c : Nat) (x : Id) : eraseW (s, c) x = (erase s x, c + (s.size - s.up x)) := by
  simp only [eraseW, erase, extractW_eq]; rfl

theorem clearW_eq (s : Arr) (c : Nat) : clearW (s, c) = (clear s, c + 1) := rfl

theorem insert_W_eq (junk : Nat → Id) (s : Arr) (c : Nat) (x : Id) (acc : Bool) :
    insert_W junk (s, c) x acc =
      (insert_ junk s x acc).map (·, c + (if s.size = s.cap then s.size + 1 else 0) + (if acc then 2 else 0)) := by
  simp only [insert_W, insert_, roomForOneW_eq, pushBackW_eq]
  cases acc <;> rfl

theorem relocateW_eq (s : Arr) (c : Nat) (position i : Id) :
    relocateW (s, c) position i = (relocate s position i, c + (if position ≠ i then
      (if s.up i < s.up position then s.up position - s.up i else s.up i - s.up position + 1) else 0)) := by
  simp only [relocateW, relocate, relocate1W_eq]; split <;> rfl

/-! ## Rotation -/

theorem cycleGoW_eq {b n m i : Nat} {tmp : Id} (hn : 0 < n) (hm : m ≤ n) (hi : i < n) :
    ∀ (fuel : Nat) (s : Arr) (c t : Nat), t < n / Nat.gcd n m →
      cycleGoW b (n - m) m i tmp fuel (s, c) (cyc n m i t) =
        (cycleGo b (n - m) m i tmp fuel s (cyc n m i t)).map (·, c + (n / Nat.gcd n m - t)) := by
  have stop : ∀ t, t < n / Nat.gcd n m → (cyc n m i (t + 1) = i ↔ t + 1 = n / Nat.gcd n m) := by
    intro t ht
    constructor
    · intro h
      by_contra hc
      have e3 : cyc n m i (t + 1) = cyc n m i 0 := by rw [cyc_zero hi]; exact h
      have := cyc_inj hn (by omega) (by omega) e3; omega
    · intro h; rw [h]; exact cyc_q hi
  intro fuel
  induction fuel with
  | zero => intro s c t _; rfl
  | succ fuel ih =>
    intro s c t ht
    unfold cycleGoW cycleGo
    simp only [cyc_step hn hm, W.put]
    by_cases h1 : t + 1 = n / Nat.gcd n m
    · rw [if_pos ((stop t ht).2 h1), if_pos ((stop t ht).2 h1)]
      simp only [Option.map_some]
      congr 2; omega
    · rw [if_neg (fun e => h1 ((stop t ht).1 e)), if_neg (fun e => h1 ((stop t ht).1 e))]
      by_cases h2 : t + 1 + 1 = n / Nat.gcd n m
      · rw [if_pos ((stop (t + 1) (by omega)).2 h2), if_pos ((stop (t + 1) (by omega)).2 h2)]
        simp only [Option.map_some]
        congr 2; omega
      · rw [if_neg (fun e => h2 ((stop (t + 1) (by omega)).1 e)), if_neg (fun e => h2 ((stop (t + 1) (by omega)).1 e))]
        rw [ih _ _ (t + 1 + 1) (by omega)]
        have : c + 1 + 1 + (n / Nat.gcd n m - (t + 1 + 1)) = c + (n / Nat.gcd n m - t) := by omega
        rw [this]

theorem cyclesGoW_eq {b n m : Nat} (hn : 0 < n) (hm : m ≤ n) :
    ∀ (r : Nat) (s : Arr) (c i : Nat), i + r = Nat.gcd n m →
      cyclesGoW b n (n - m) m r (s, c) i = (cyclesGo b n (n - m) m r s i).map (·, c + r * (n / Nat.gcd n m)) := by
  have hg : 0 < Nat.gcd n m := Nat.gcd_pos_of_pos_left _ hn
  have hgn : Nat.gcd n m ≤ n := Nat.gcd_le_left _ hn
  have hq : 0 < n / Nat.gcd n m := Nat.div_pos hgn hg
  intro r
  induction r with
  | zero => intro s c i _; simp [cyclesGoW, cyclesGo]
  | succ r ih =>
    intro s c i hi
    have e := cycleGoW_eq (b := b) (tmp := s.arr (b + i)) hn hm (show i < n by omega) n s c 0 hq
    rw [cyc_zero (by omega)] at e
    simp only [cyclesGoW, cyclesGo, e]
    cases cycleGo b (n - m) m i (s.arr (b + i)) n s i with
    | none => rfl
    | some s1 =>
      simp only [Option.map_some]
      rw [ih _ _ _ (by omega)]
      have : c + (n / Nat.gcd n m - 0) + r * (n / Nat.gcd n m) = c + (r + 1) * (n / Nat.gcd n m) := by
        rw [Nat.add_mul]; omega
      rw [this]

theorem relocateRW_eq (s : Arr) (c : Nat) {pos first last : Nat} (h1 : first ≤ last) (h2 : pos < first ∨ last ≤ pos) :
    relocateRW (s, c) pos first last =
      (relocateR s pos first last).map (·, c + (if pos < first then last - pos else pos - first)) := by
  have key : ∀ (b n m : Nat), m ≤ n →
      cyclesGoW b n (n - m) m (Nat.gcd n m) (s, c) 0 = (cyclesGo b n (n - m) m (Nat.gcd n m) s 0).map (·, c + n) := by
    intro b n m hm
    rcases Nat.eq_zero_or_pos n with rfl | hn
    · have : m = 0 := by omega
      subst this; rfl
    · rw [cyclesGoW_eq hn hm _ _ _ _ (by omega), Nat.mul_div_cancel' (Nat.gcd_dvd_left n m)]
  unfold relocateRW relocateR
  by_cases h : pos < first
  · simp only [if_pos h]; exact key _ _ _ (by omega)
  · simp only [if_neg h]; exact key _ _ _ (by omega)

theorem relocateRangeW_eq (s : Arr) (c : Nat) {position first last : Id} (h1 : s.up first ≤ s.up last)
    (h2 : s.up position < s.up first ∨ s.up last ≤ s.up position) :
    relocateRangeW (s, c) position first last = (relocateRange s position first last).map
      (·, c + (if position ≠ last then
        (if s.up position < s.up first then s.up last - s.up position else s.up position - s.up first) else 0)) := by
  unfold relocateRangeW relocateRange
  split
  · exact relocateRW_eq s c h1 h2
  · rfl

/-! ## Loops that depend on the contents -/

theorem gatherFwdW_eq (nul : Id) (n : Nat) : ∀ (s : Arr) (c b p : Nat), ∃ d, d ≤ n ∧
    gatherFwdW nul n (s, c) b p = (((gatherFwd nul n s b p).1, c + d), (gatherFwd nul n s b p).2) := by
  induction n with
  | zero => intro s c b p; exact ⟨0, Nat.le_refl _, rfl⟩
  | succ n ih =>
    intro s c b p
    simp only [gatherFwdW, gatherFwd, W.put]
    split
    · obtain ⟨d, h, e⟩ := ih (s.put b (s.arr p)) (c + 1) (b + 1) (p + 1)
      exact ⟨d + 1, by omega, by rw [e]; congr 2; omega⟩
    · obtain ⟨d, h, e⟩ := ih s c b (p + 1)
      exact ⟨d, by omega, e⟩

theorem gatherBwdW_eq (nul : Id) (n : Nat) : ∀ (s : Arr) (c b p : Nat), ∃ d, d ≤ n ∧
    gatherBwdW nul n (s, c) b p = (gatherBwd nul n s b p, c + d) := by
  induction n with
  | zero => intro s c b p; exact ⟨0, Nat.le_refl _, rfl⟩
  | succ n ih =>
    intro s c b p
    simp only [gatherBwdW, gatherBwd, W.put]
    split
    · obtain ⟨d, h, e⟩ := ih (s.put (b - 1) (s.arr (p - 1))) (c + 1) (b - 1) (p - 1)
      exact ⟨d + 1, by omega, by rw [e]; congr 1; omega⟩
    · obtain ⟨d, h, e⟩ := ih s c b (p - 1)
      exact ⟨d, by omega, e⟩

theorem internalSpliceW_eq (nul : Id) (s : Arr) (c : Nat) (position : Id) (vs : List Id) (h : s.up position ≤ s.size) : ∃ d,
    d ≤ 2 * vs.length + s.size ∧ internalSpliceW nul (s, c) position vs = (internalSplice nul s position vs, c + d) := by
  obtain ⟨hu, hs, _, _⟩ := nullOut_spec nul vs s
  obtain ⟨d1, h1, e1⟩ := gatherFwdW_eq nul (s.up position) (nullOut nul vs s) (c + vs.length) 0 0
  obtain ⟨d2, h2, e2⟩ := gatherBwdW_eq nul (s.size - s.up position) (gatherFwd nul (s.up position) (nullOut nul vs s) 0 0).1
    (c + vs.length + d1) s.size s.size
  refine ⟨2 * vs.length + d1 + d2, by omega, ?_⟩
  simp only [internalSpliceW, internalSplice, gatherNullsW, gatherNulls, nullOutW_eq, hu, hs, e1, e2, writeBackW_eq]
  congr 1; omega

/-- An outcome with a counter. -/
def tag (c : Nat) : Out Arr → Out W
  | .ok s => .ok (s, c)
  | .threw s => .threw (s, c)
  | .ub => .ub
  | .hang => .hang

/-- An outcome with a counter and a position. -/
def tag2 (c : Nat) : Out (Arr × Nat) → Out (W × Nat)
  | .ok (s, r) => .ok ((s, c), r)
  | .threw (s, r) => .threw ((s, c), r)
  | .ub => .ub
  | .hang => .hang

theorem removeGoW_eq (pred : Nat → Id → Option Bool) (n : Nat) : ∀ (s : Arr) (c k f r : Nat), ∃ d, d ≤ 2 * n ∧
    removeGoW pred n (s, c) k f r = tag2 (c + d) (removeGo pred n s k f r) := by
  induction n with
  | zero => intro s c k f r; exact ⟨0, Nat.le_refl _, rfl⟩
  | succ n ih =>
    intro s c k f r
    simp only [removeGoW, removeGo]
    rcases pred k (s.arr f) with _ | _ | _
    · exact ⟨0, by omega, rfl⟩
    · by_cases h : f ≠ r
      · obtain ⟨d, hd, e⟩ := ih (s.swapSlots f r) (c + 2) (k + 1) (f + 1) (r + 1)
        refine ⟨d + 2, by omega, ?_⟩
        simp only [if_pos h, W.swapSlots]
        rw [e]; congr 1; omega
      · obtain ⟨d, hd, e⟩ := ih s c (k + 1) (f + 1) (r + 1)
        exact ⟨d, by omega, by simp only [if_neg h]; exact e⟩
    · obtain ⟨d, hd, e⟩ := ih s c (k + 1) (f + 1) r
      exact ⟨d, by omega, e⟩

theorem uniqueGoW_eq (pred : Nat → Id → Id → Option Bool) (n : Nat) : ∀ (s : Arr) (c k f r : Nat), ∃ d, d ≤ 2 * n ∧
    uniqueGoW pred n (s, c) k f r = tag2 (c + d) (uniqueGo pred n s k f r) := by
  induction n with
  | zero => intro s c k f r; exact ⟨0, Nat.le_refl _, rfl⟩
  | succ n ih =>
    intro s c k f r
    simp only [uniqueGoW, uniqueGo]
    rcases pred k (s.arr r) (s.arr f) with _ | _ | _
    · exact ⟨0, by omega, rfl⟩
    · by_cases h : f ≠ r + 1
      · obtain ⟨d, hd, e⟩ := ih (s.swapSlots f (r + 1)) (c + 2) (k + 1) (f + 1) (r + 1)
        refine ⟨d + 2, by omega, ?_⟩
        simp only [if_pos h, W.swapSlots]
        rw [e]; congr 1; omega
      · obtain ⟨d, hd, e⟩ := ih s c (k + 1) (f + 1) (r + 1)
        exact ⟨d, by omega, by simp only [if_neg h]; exact e⟩
    · obtain ⟨d, hd, e⟩ := ih s c (k + 1) (f + 1) r
      exact ⟨d, by omega, e⟩

theorem popBackNW_eq {hd : Id} (n : Nat) : ∀ {s : Arr} {xs : List Id} (c : Nat), Rep s hd xs → n ≤ xs.length →
    popBackNW hd n (s, c) = (popBackN hd n s, c + n) := by
  induction n with
  | zero => intro s xs c _ _; rfl
  | succ n ih =>
    intro s xs c h hn
    obtain ⟨w, z, rfl⟩ := (List.eq_nil_or_concat' xs).resolve_left (by rintro rfl; simp at hn)
    simp only [List.length_append, List.length_singleton] at hn
    have e0 : decrement s hd = z := by simpa [hdOr] using rep_decrement (u := w) (x := z) (v := []) (by simpa using h)
    have e1 := (show Rep s hd (w ++ z :: []) by simpa using h).up_split
    have hs := h.1
    simp only [List.length_append, List.length_singleton] at hs
    simp only [popBackNW, popBackN, eraseW_eq, e0]
    rw [ih _ (xs := w) (by simpa using (rep_erase (u := w) (x := z) (v := []) (by simpa using h)).1) (by omega)]
    congr 1
    have : s.up z = w.length := by simpa using e1.1
    omega

end MI.Rnd

namespace MI.Rnd
open MI

/-- What has been saved up for the next reallocation. -/
def phi (s : Arr) : Nat := 4 * s.size - 3 * s.cap

theorem phi_mono {s s' : Arr} (h1 : s'.size ≤ s.size) (h2 : s.cap ≤ s'.cap) : phi s' ≤ phi s := by unfold phi; omega

theorem phi_room (junk : Nat → Id) {s : Arr} {hd : Id} {xs : List Id} (h : Rep s hd xs) :
    (if s.size = s.cap then s.size + 1 else 0) + phi (roomForOne junk s) ≤ phi s + 1 := by
  unfold roomForOne
  split
  · rename_i e
    obtain ⟨r, c⟩ := rep_reserve junk h (if s.cap ≤ 10 then 15 else s.cap + s.cap / 2)
    unfold phi
    rw [c, r.1, h.1]
    have := h.1
    split <;> omega
  · omega

theorem insert_W_phi (junk : Nat → Id) {s : Arr} {hd x : Id} {xs : List Id} (h : Rep s hd xs) (hx : x ∉ hd :: xs) (acc : Bool) (c : Nat) :
    ∃ s' d, insert_W junk (s, c) x acc = some (s', c + d) ∧ insert_ junk s x acc = some s' ∧
      Rep s' hd (if acc then xs ++ [x] else xs) ∧ d + phi s' ≤ phi s + (if acc then 7 else 1) := by
  rw [insert_W_eq]
  obtain ⟨h1, h2, h3⟩ := rep_roomForOne junk h
  have hp := phi_room junk h
  have hsz := h1.1
  unfold insert_
  cases acc with
  | false => exact ⟨_, _, rfl, rfl, h1, by simpa using hp⟩
  | true =>
    obtain ⟨s', e, r, c'⟩ := rep_pushBack h1 hx h2
    refine ⟨s', (if s.size = s.cap then s.size + 1 else 0) + 2, ?_, ?_, r, ?_⟩
    · simp only [if_true, e, Option.map_some]; congr 2
    · simp only [if_true, e]
    · have := r.1
      simp only [List.length_append, List.length_singleton] at this
      unfold phi at hp ⊢
      simp only [if_true]
      split at hp <;> rename_i hc
      · rw [if_pos hc]; omega
      · rw [if_neg hc]; omega

theorem insertLoopW_phi (junk : Nat → Id) {hd : Id} (vs : List (Id × Option Bool)) : ∀ {s : Arr} {xs : List Id} {n : Nat} (c : Nat),
    Rep s hd xs → (vs.map Prod.fst).Nodup → (∀ x ∈ vs.map Prod.fst, x ∉ hd :: xs) →
    ∃ s' d, insertLoopW junk vs (s, c) n = some ((s', c + d), n + (addedBy vs).1.length, (addedBy vs).2) ∧
      insertLoop junk vs s n = some (s', n + (addedBy vs).1.length, (addedBy vs).2) ∧
      Rep s' hd (xs ++ (addedBy vs).1) ∧ d + phi s' ≤ phi s + 7 * vs.length := by
  induction vs with
  | nil => intro s xs n c h _ _; exact ⟨s, 0, by simp [insertLoopW, addedBy], by simp [insertLoop, addedBy], by simpa [addedBy] using h, by simp⟩
  | cons w vs ih =>
    intro s xs n c h hn hx
    obtain ⟨x, b⟩ := w
    cases b with
    | none =>
      refine ⟨roomForOne junk s, if s.size = s.cap then s.size + 1 else 0, ?_, by simp [insertLoop, addedBy],
        by simpa [addedBy] using (rep_roomForOne junk h).1, ?_⟩
      · simp [insertLoopW, addedBy, roomForOneW_eq]
      · have := phi_room junk h; simp only [List.length_cons]; omega
    | some acc =>
      obtain ⟨s1, d1, w1, e1, r1, c1⟩ := insert_W_phi junk h (hx x (by simp)) acc c
      simp only [List.map_cons, List.nodup_cons] at hn
      simp only [insertLoop, insertLoopW, e1, w1]
      cases acc with
      | false =>
        obtain ⟨s', d, w, e, r, k⟩ := ih (n := n) (c + d1) r1 hn.2 (fun y hy => hx y (by simp [hy]))
        refine ⟨s', d1 + d, ?_, by simpa [addedBy] using e, by simpa [addedBy] using r, ?_⟩
        · rw [← Nat.add_assoc]; simpa [addedBy] using w
        · simp only [List.length_cons] at *; simp only [Bool.false_eq_true, if_false] at c1; omega
      | true =>
        obtain ⟨s', d, w, e, r, k⟩ := ih (n := n + 1) (c + d1) r1 hn.2 (fun y hy => by
          have h1 := hx y (by simp only [List.map_cons, List.mem_cons]; exact Or.inr hy)
          have h2 : y ≠ x := fun e => hn.1 (e ▸ hy)
          simp only [if_true, List.mem_cons, List.mem_append, not_or, List.not_mem_nil, or_false] at h1 ⊢
          exact ⟨h1.1, h1.2, h2⟩)
        have hl : n + 1 + (addedBy vs).1.length = n + ((addedBy vs).1.length + 1) := by omega
        refine ⟨s', d1 + d, ?_, ?_, by simpa [addedBy] using r, ?_⟩
        · rw [← Nat.add_assoc]; simp only [if_true, w, addedBy, List.length_cons, hl]
        · simp only [if_true, e, addedBy, List.length_cons, hl]
        · simp only [List.length_cons] at *; simp only [if_true] at c1; omega

theorem popTailW {s : Arr} {hd : Id} {a b : List Id} (h : Rep s hd (a ++ b)) (c : Nat) : ∃ d, d ≤ b.length ∧
    popBackNW hd (distance s (s.arr a.length) hd).toNat (s, c) = (popBackN hd (distance s (s.arr a.length) hd).toNat s, c + d) ∧
    phi (popBackN hd (distance s (s.arr a.length) hd).toNat s) ≤ phi s := by
  have e : (distance s (s.arr a.length) hd).toNat = b.length := by
    have := h.up_hdOr
    unfold distance
    rw [this.2, this.1, h.up_end, List.length_append]; omega
  have hp := rep_popBackN b.length h (by simp)
  refine ⟨b.length, Nat.le_refl _, by rw [e]; exact popBackNW_eq _ _ h (by simp), ?_⟩
  rw [e]
  exact phi_mono (by rw [hp.1.1, h.1]; simp) (by rw [hp.2])

/-- One operation: what it does, what it writes and what it leaves saved up. -/
theorem stepW_phi (junk : Nat → Id) {nul hd : Id} {s : Arr} {xs : List Id} (h : Rep s hd xs) (op : Op)
    (hl : Legal nul hd xs op) (hno : op.isLoad = false) (c : Nat) :
    ∃ s' d, stepW junk nul hd (s, c) op = some (s', c + d) ∧ step junk nul hd s op = some s' ∧ d + phi s' ≤ phi s + price s.size op := by
  have hs := h.1
  cases op with
  | insert p x dec =>
    obtain ⟨hp, hx⟩ := hl
    cases dec with
    | none =>
      refine ⟨_, if s.size = s.cap then s.size + 1 else 0, by simp only [stepW, roomForOneW_eq], rfl, ?_⟩
      have := phi_room junk h; simp only [price]; omega
    | some acc =>
      obtain ⟨s1, d1, w1, e1, r1, c1⟩ := insert_W_phi junk h hx acc c
      simp only [step, stepW, insertAt, insertAtW, e1, w1, price]
      cases acc with
      | false => exact ⟨s1, d1, by simp, by simp, by simp only [Bool.false_eq_true, if_false] at c1; omega⟩
      | true =>
        simp only [if_true] at r1 c1
        simp only [true_and]
        by_cases hph : s.arr p = hd
        · exact ⟨s1, d1, by simp [hph], by simp [hph], by omega⟩
        · have hpl : p < xs.length := by
            rcases Nat.lt_or_ge p xs.length with h' | h'
            · exact h'
            · have : p = xs.length := by omega
              subst this; exact absurd h.arr_end hph
          simp only [ne_eq, hph, not_false_eq_true, if_true, relocate1W_eq]
          refine ⟨_, d1 + ((xs.length - p) + 1), ?_, rfl, ?_⟩
          · have u1 : s1.up (s.arr p) = p := by
              rw [h.arr hpl]
              have := r1.up (i := p) (by simp; omega)
              rwa [List.getElem_append_left hpl] at this
            have u2 : s1.up x = xs.length := by simpa using r1.up_split.1
            rw [u1, u2, if_neg (by omega), Nat.add_assoc]
          · have : phi (relocate1 s1 (s1.up (s.arr p)) (s1.up x)) = phi s1 := by
              unfold phi
              rw [relocate1_cap]
              congr 2
              have e2 := (rep_insertAt junk (p := xs.take p) (q := xs.drop p) (x := x) (by simpa using h) (by simpa using hx))
              obtain ⟨s', e', r', _⟩ := e2
              rw [← h.at hp] at e'
              simp only [insertAt, e1, true_and, ne_eq, hph, not_false_eq_true, if_true, Option.some.injEq] at e'
              rw [e', r'.1, r1.1]; simp; omega
            rw [this]
            unfold shl
            rw [if_neg (by omega)]
            omega
  | insertRange p vs =>
    obtain ⟨hp, hn, hx⟩ := hl
    obtain ⟨s1, d1, w1, e1, r1, c1⟩ := insertLoopW_phi junk vs (n := 0) c h hn hx
    obtain ⟨s', ys, e', _, r'⟩ := step_effect junk (nul := nul) h (.insertRange p vs) ⟨hp, hn, hx⟩
    simp only [step, insertIter, e1, Nat.zero_add] at e'
    simp only [step, stepW, insertIter, insertIterW, e1, w1, Nat.zero_add, price]
    have hf : advance s1 hd (-((addedBy vs).1.length : Int)) = hdOr hd ((addedBy vs).1 ++ []) := by
      have a := (show Rep s1 hd (xs ++ ((addedBy vs).1 ++ [])) by simpa using r1).up_hdOr.2
      rw [← a]
      unfold advance
      have b := r1.up_end
      rw [b]; congr 1
      simp only [List.length_append]; omega
    have u1 : s1.up (advance s1 hd (-((addedBy vs).1.length : Int))) = xs.length := by
      rw [hf]; exact (show Rep s1 hd (xs ++ ((addedBy vs).1 ++ [])) by simpa using r1).up_hdOr.1
    have u2 : s1.up hd = xs.length + (addedBy vs).1.length := by rw [r1.up_end, List.length_append]
    have hsub : (addedBy vs).1.length ≤ vs.length := by
      clear * -
      induction vs with
      | nil => simp [addedBy]
      | cons v vs ih =>
        obtain ⟨x, b⟩ := v
        rcases b with _ | _ | _ <;> simp only [addedBy, List.length_cons, List.length_nil] <;> omega
    have up' : s1.up (s.arr p) = p ∨ (s.arr p = hd ∧ p = xs.length) := by
      rcases Nat.lt_or_ge p xs.length with h' | h'
      · left
        rw [h.arr h']
        have := r1.up (i := p) (by simp; omega)
        rwa [List.getElem_append_left h'] at this
      · right
        have : p = xs.length := by omega
        subst this; exact ⟨h.arr_end, rfl⟩
    rw [relocateRangeW_eq s1 _ (by rw [u1, u2]; omega) (by
      rcases up' with e | ⟨e, _⟩
      · rw [e, u1, u2]
        by_cases hpp : s.arr p = hd
        · rw [hpp, u2] at e; omega
        · have : p ≠ xs.length := fun e => hpp (by rw [e]; exact h.arr_end)
          omega
      · rw [e, u1, u2]; omega)]
    rcases hr : relocateRange s1 (s.arr p) (advance s1 hd (-((addedBy vs).1.length : Int))) hd with _ | s2
    · rw [hr] at e'; simp [Out.state] at e'
    · have hph : phi s2 = phi s1 := by
        unfold phi
        have c2 : s2.cap = s1.cap := by
          unfold relocateRange at hr
          split at hr
          · exact cyclesGo_cap _ _ _ _ _ _ _ _ hr
          · simp at hr; rw [hr]
        have z2 : s2.size = s1.size := by
          have r2 : Rep s1 hd (xs ++ (addedBy vs).1 ++ []) := by simpa using r1
          obtain ⟨s3, e3, r3, _⟩ := rep_relocateRange r2 (p := xs.take p) (q := xs.drop p) (by simp)
          have hl : hdOr hd ([] : List Id) = hd := rfl
          rw [hl, ← hf, ← h.at hp, hr] at e3
          cases e3
          rw [r3.1, r1.1]; simp; omega
        rw [c2, z2]
      refine ⟨s2, d1 + (if s.arr p ≠ hd then
        (if s1.up (s.arr p) < s1.up (advance s1 hd (-((addedBy vs).1.length : Int))) then s1.up hd - s1.up (s.arr p)
          else s1.up (s.arr p) - s1.up (advance s1 hd (-((addedBy vs).1.length : Int)))) else 0), ?_, ?_, ?_⟩
      · simp only [Option.map_some]
        rw [← Nat.add_assoc]
        cases (addedBy vs).2 <;> rfl
      · cases (addedBy vs).2 <;> rfl
      · rw [hph, u1, u2]
        by_cases hpp : s.arr p = hd
        · rw [if_neg (by simpa using hpp)]; omega
        · have : p ≠ xs.length := fun e => hpp (by rw [e]; exact h.arr_end)
          rcases up' with e | ⟨e, _⟩
          · rw [if_pos hpp, e, if_pos (by omega)]
            unfold shl
            rw [if_neg (by omega)]
            omega
          · exact absurd e hpp
  | erase p =>
    simp only [Legal] at hl
    obtain ⟨s', ys, e', ef, r'⟩ := step_effect junk (nul := nul) h (.erase p) hl
    simp only [step, eraseAt, Option.some.injEq] at e'
    refine ⟨erase s (s.arr p), xs.length - p, ?_, rfl, ?_⟩
    · simp only [stepW, eraseW_eq]
      rw [h.arr hl, h.up hl, hs]
    · have : phi (erase s (s.arr p)) ≤ phi s := by
        have e := drop_split hl
        have hr : Rep s hd (xs.take p ++ xs[p] :: xs.drop (p + 1)) := by rw [← e]; exact h
        have := rep_erase hr
        rw [h.arr hl]
        refine phi_mono ?_ (by rw [this.2])
        rw [this.1.1, hs]; simp; omega
      simp only [price]; omega
  | eraseRange p q =>
    obtain ⟨h1, h2⟩ := hl
    have e := three_split (xs := xs) h1
    have hr : Rep s hd (xs.take p ++ (xs.drop p).take (q - p) ++ xs.drop q) := by rw [← e]; exact h
    obtain ⟨s2, e2, r2, c2⟩ := rep_relocateRange hr (p := xs.take p ++ xs.drop q) (q := []) (by simp)
    obtain ⟨s', e', r', c'⟩ := rep_eraseRange hr
    rw [← drop_three (xs := xs) h1, ← h.at (show p ≤ xs.length by omega), ← h.at h2] at e2 e'
    have hq : hdOr hd ([] : List Id) = hd := rfl
    rw [hq] at e2
    have up : ∀ i, i ≤ xs.length → s.up (s.arr i) = i := by
      intro i hi
      have := (show Rep s hd (xs.take i ++ xs.drop i) by simpa using h).up_hdOr.1
      rw [h.at hi, this]; simp [hi]
    have uh : s.up hd = xs.length := h.up_end
    have hd' : (distance s (s.arr p) (s.arr q)).toNat = q - p := by
      unfold distance; rw [up p (by omega), up q h2]; omega
    have hpop : (popBackN hd (q - p) s2) = s' := by
      simp only [eraseRange, e2, hd', Option.some.injEq] at e'; exact e'
    refine ⟨s', (if hd ≠ s.arr q then (if s.up hd < s.up (s.arr p) then s.up (s.arr q) - s.up hd else s.up hd - s.up (s.arr p)) else 0)
      + (q - p), ?_, e', ?_⟩
    · simp only [stepW, eraseRangeW]
      rw [relocateRangeW_eq s c (by rw [up p (by omega), up q h2]; omega) (by rw [up p (by omega), up q h2, uh]; omega), e2]
      simp only [Option.map_some, hd']
      rw [popBackNW_eq (q - p) _ r2 (by simp; omega), hpop, Nat.add_assoc]
    · have : phi s' ≤ phi s := by
        refine phi_mono ?_ (by rw [c'])
        rw [r'.1, hs]; simp; omega
      simp only [price, uh, up p (by omega), up q h2]
      rw [if_neg (show ¬ xs.length < p by omega)]
      split <;> omega
  | relocate p i =>
    obtain ⟨h1, h2⟩ := hl
    have up : ∀ i, i ≤ xs.length → s.up (s.arr i) = i := by
      intro i hi
      have := (show Rep s hd (xs.take i ++ xs.drop i) by simpa using h).up_hdOr.1
      rw [h.at hi, this]; simp [hi]
    obtain ⟨s', ys, e', ef, r'⟩ := step_effect junk (nul := nul) h (.relocate p i) ⟨h1, h2⟩
    refine ⟨_, if s.arr p ≠ s.arr i then
      (if s.up (s.arr i) < s.up (s.arr p) then s.up (s.arr p) - s.up (s.arr i) else s.up (s.arr i) - s.up (s.arr p) + 1) else 0,
      by simp only [stepW, relocateW_eq], rfl, ?_⟩
    have : phi (relocate s (s.arr p) (s.arr i)) ≤ phi s := by
      simp only [step, Option.some.injEq] at e'
      refine phi_mono ?_ ?_
      · rw [e', r'.1, hs]
        simp only [Effect] at ef
        subst ef
        split <;> simp <;> omega
      · unfold relocate; split
        · rw [relocate1_cap]
        · exact Nat.le_refl _
    simp only [price, rel]
    rw [up p h1, up i (by omega)]
    split
    · rename_i hne
      have : p ≠ i := by rintro rfl; exact hne rfl
      split <;> split <;> omega
    · omega
  | relocateRange p i j =>
    obtain ⟨h1, h2, h3, h4⟩ := hl
    have up : ∀ i, i ≤ xs.length → s.up (s.arr i) = i := by
      intro i hi
      have := (show Rep s hd (xs.take i ++ xs.drop i) by simpa using h).up_hdOr.1
      rw [h.at hi, this]; simp [hi]
    obtain ⟨s', ys, e', ef, r'⟩ := step_effect junk (nul := nul) h (.relocateRange p i j) ⟨h1, h2, h3, h4⟩
    refine ⟨s', (if s.arr p ≠ s.arr j then
        (if s.up (s.arr p) < s.up (s.arr i) then s.up (s.arr j) - s.up (s.arr p) else s.up (s.arr p) - s.up (s.arr i)) else 0), ?_, e', ?_⟩
    · simp only [stepW]
      rw [relocateRangeW_eq s c (by rw [up i (by omega), up j h2]; omega) (by rw [up p h3, up i (by omega), up j h2]; omega)]
      simp only [step] at e'
      rw [e']; rfl
    · have : phi s' ≤ phi s := by
        refine phi_mono ?_ ?_
        · rw [r'.1, hs]
          simp only [Effect] at ef
          subst ef
          split <;> simp <;> omega
        · simp only [step, relocateRange] at e'
          split at e'
          · rw [cyclesGo_cap _ _ _ _ _ _ _ _ e']
          · cases e'; exact Nat.le_refl _
      simp only [price, rel]
      rw [up p h3, up i (by omega), up j h2]
      split
      · split <;> omega
      · omega
  | reverse =>
    refine ⟨_, 2 * (s.size / 2), by simp only [stepW, reverseW, reverseGoW_eq, reverse], rfl, ?_⟩
    obtain ⟨r, cp⟩ := rep_reverse h
    have : phi (reverse s) ≤ phi s := phi_mono (by rw [r.1, hs]; simp) (by rw [cp])
    simp only [price]; omega
  | rearrange vs =>
    have hp : vs.Perm xs := hl
    refine ⟨rearrangeGo vs s 0, 2 * vs.length, by simp only [stepW, rearrangeGoW_eq], rfl, ?_⟩
    obtain ⟨r, cp⟩ := rep_rearrangeGo vs (dn := []) (rest := xs) (s := s) (by simpa using h) hp
    have hlen := hp.length_eq
    have : phi (rearrangeGo vs s 0) ≤ phi s := phi_mono (by
      have := r.1; simp only [List.length_nil, List.nil_append] at this; rw [this, hs]; omega) (by
      simp only [List.length_nil] at cp; rw [cp])
    simp only [price]; omega
  | splice p vs =>
    obtain ⟨hp, hn, hsub, hnul⟩ := hl
    have up : s.up (s.arr p) = p := by
      have := (show Rep s hd (xs.take p ++ xs.drop p) by simpa using h).up_hdOr.1
      rw [h.at hp, this]; simp [hp]
    obtain ⟨d, hd', e⟩ := internalSpliceW_eq nul s c (s.arr p) vs (by rw [up]; omega)
    refine ⟨_, d, by simp only [stepW, e], rfl, ?_⟩
    obtain ⟨s', ys, e', ef, r'⟩ := step_effect junk (nul := nul) h (.splice p vs) ⟨hp, hn, hsub, hnul⟩
    have cp := (rep_internalSplice (u := xs.take p) (v := xs.drop p) (nul := nul) (vs := vs) (by simpa using h) hn (by simpa using hsub)
      (by simpa using hnul)).2
    rw [← h.at hp] at cp
    simp only [step, Option.some.injEq] at e'
    have : phi (internalSplice nul s (s.arr p) vs) ≤ phi s := by
      refine phi_mono ?_ (by rw [cp])
      rw [e', r'.1, hs]
      simp only [Effect] at ef
      subst ef
      have hperm : ((xs.take p).filter (· ∉ vs) ++ vs ++ (xs.drop p).filter (· ∉ vs)).Perm xs := by
        have a : (xs.filter (· ∈ vs)).Perm vs := by
          rw [List.perm_ext_iff_of_nodup (h.nodup'.filter _) hn]
          intro y; simp only [List.mem_filter, decide_eq_true_eq]; exact ⟨fun z => z.2, fun z => ⟨hsub y z, z⟩⟩
        have b : ((xs.take p).filter (· ∉ vs) ++ vs ++ (xs.drop p).filter (· ∉ vs)).Perm (vs ++ xs.filter (· ∉ vs)) := by
          conv_rhs => rw [← List.take_append_drop p xs, List.filter_append, ← List.append_assoc]
          exact List.Perm.append_right _ List.perm_append_comm
        refine b.trans (((a.symm).append_right _).trans ?_)
        have := List.filter_append_perm (fun x => decide (x ∈ vs)) xs
        simpa using this
      exact Nat.le_of_eq hperm.length_eq
    simp only [price]; omega
  | removeIf pred =>
    obtain ⟨d, hd', w⟩ := removeGoW_eq pred s.size s c 0 0 0
    obtain ⟨s2, e2, r2, c2⟩ := rep_removeGo pred (hd := hd) xs (s := s) (kept := []) (gone := []) (k := 0) (by simpa using h)
    simp only [List.length_nil, Nat.add_zero] at e2
    rw [hs, e2] at w
    have hlen := (remL_perm pred xs 0 [] []).length_eq
    simp only [List.length_append, List.nil_append] at hlen
    simp only [stepW, removeIfW, step, removeIf, price, hs, w, e2]
    have hpl := h.2.1
    cases hb : (remL pred 0 [] [] xs).1 with
    | false =>
      refine ⟨s2, d, rfl, rfl, ?_⟩
      have : phi s2 ≤ phi s := phi_mono (by rw [r2.1, hs, List.length_append]; omega) (by rw [c2])
      omega
    | true =>
      obtain ⟨d2, h2, e, p⟩ := popTailW r2 (c + d)
      refine ⟨_, d + d2, by rw [← Nat.add_assoc]; exact congrArg some e, rfl, ?_⟩
      have : phi s2 ≤ phi s := phi_mono (by rw [r2.1, hs, List.length_append]; omega) (by rw [c2])
      omega
  | unique pred =>
    cases xs with
    | nil =>
      have h0 := h.1
      simp only [List.length_nil] at h0
      obtain ⟨d2, h2, e, p⟩ := popTailW (a := []) (b := []) h c
      refine ⟨popBackN hd (distance s (s.arr 0) hd).toNat s, d2, ?_, ?_, ?_⟩
      · simp only [stepW, uniqueW, uniqueAllW, if_pos h0]; exact congrArg some e
      · simp only [step, unique, uniqueAll, if_pos h0]; rfl
      · simp only [price, List.length_nil] at *; omega
    | cons f xs =>
      simp only [List.length_cons] at hs
      obtain ⟨d, hd', w⟩ := uniqueGoW_eq pred (s.size - 1) s c 0 1 0
      obtain ⟨s2, e2, r2, c2⟩ := rep_uniqueGo pred xs (s := s) (kept := []) (f := f) (gone := []) (k := 0) (by simpa using h)
      simp only [List.length_nil, Nat.add_zero, Nat.zero_add] at e2
      have e0 : s.size - 1 = xs.length := by omega
      rw [e0, e2] at w
      have hlen := (uniL_perm pred xs 0 [] f []).length_eq
      simp only [List.length_append, List.nil_append, List.length_cons, List.length_nil] at hlen
      simp only [stepW, uniqueW, uniqueAllW, step, unique, uniqueAll, price, if_neg (show s.size ≠ 0 by omega), e0, w, e2]
      have : phi s2 ≤ phi s := phi_mono (by rw [r2.1, hs, List.length_append]; omega) (by rw [c2])
      cases hb : (uniL pred 0 [] f [] xs).1 with
      | false => exact ⟨s2, d, rfl, rfl, by omega⟩
      | true =>
        obtain ⟨d2, h2, e, p⟩ := popTailW r2 (c + d)
        exact ⟨_, d + d2, by rw [← Nat.add_assoc]; exact congrArg some e, rfl, by omega⟩
  | sort ssort =>
    have hperm : ∀ ys, ssort xs = some ys → ys.Perm xs := hl
    simp only [stepW, sortW, step, sort, h.slots, price]
    by_cases h1 : s.size ≤ 1
    · simp only [if_pos h1]; exact ⟨s, 0, rfl, rfl, by omega⟩
    · simp only [if_neg h1]
      rcases hq : ssort xs with _ | ys
      · exact ⟨s, 0, rfl, rfl, by omega⟩
      · obtain ⟨r, cp⟩ := rep_writeBack h (hperm ys hq)
        have hlen := (hperm ys hq).length_eq
        have : phi (writeBack ys s 0) ≤ phi s := phi_mono (by rw [r.1, hs]; omega) (by rw [cp])
        exact ⟨writeBack ys s 0, ys.length, by simp only [writeBackW_eq]; rfl, rfl, by omega⟩
  | reserve n =>
    refine ⟨_, if n > s.cap then s.size + 1 else 0, by simp only [stepW, reserveW_eq], rfl, ?_⟩
    obtain ⟨r, cp⟩ := rep_reserve junk h n
    have : phi (reserve junk s n) ≤ phi s := phi_mono (by rw [r.1, hs]) (by rw [cp]; exact Nat.le_max_left _ _)
    simp only [price]; split <;> omega
  | shrinkToFit =>
    refine ⟨_, if s.cap > s.size then s.size + 1 else 0, by simp only [stepW, shrinkToFitW_eq], rfl, ?_⟩
    obtain ⟨r, cp⟩ := rep_shrink junk h
    have := r.1
    simp only [price, phi]; split <;> omega
  | clear =>
    refine ⟨_, 1, by simp only [stepW, clearW_eq], rfl, ?_⟩
    obtain ⟨r, cp⟩ := rep_clear h
    have := r.1
    have : phi (clear s) ≤ phi s := phi_mono (by rw [r.1]; simp) (by rw [cp])
    simp only [price]; omega
  | load moves => simp [Op.isLoad] at hno

/-- A history. -/
theorem runW_phi (junk : Nat → Id) {nul hd : Id} : ∀ (ops : List Op) {s : Arr} {xs : List Id} (c : Nat), Rep s hd xs →
    Valid junk nul hd ops s → (∀ op ∈ ops, op.isLoad = false) →
    ∃ s' d, runW junk nul hd ops (s, c) = some (s', c + d) ∧ run junk nul hd ops s = some s' ∧
      d + phi s' ≤ phi s + bill junk nul hd ops s := by
  intro ops
  induction ops with
  | nil => intro s xs c _ _ _; exact ⟨s, 0, rfl, rfl, by simp [bill]⟩
  | cons op ops ih =>
    intro s xs c h hv hno
    have hc : contents s = xs := h.slots
    obtain ⟨h1, h2⟩ := hv
    rw [hc] at h1
    obtain ⟨s1, d1, w1, e1, p1⟩ := stepW_phi junk h op h1 (hno op (by simp)) c
    obtain ⟨s1', ys, e', _, r'⟩ := step_effect junk h op h1
    rw [e1] at e'; cases e'
    obtain ⟨s2, d2, w2, e2, p2⟩ := ih (c + d1) r' (h2 s1 e1) (fun o ho => hno o (by simp [ho]))
    refine ⟨s2, d1 + d2, by simp only [runW, w1]; rw [← Nat.add_assoc]; exact w2, by simp only [run, e1]; exact e2, ?_⟩
    simp only [bill, e1]
    omega

end MI.Rnd
