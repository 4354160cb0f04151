import Verif.Ord.ActsLemmas3
/-! Histories that are expensive (helper lemmas). -/
namespace MI.Ord
open MI

section
variable {K : Type} {lt : K → K → Bool} {u : Bool} {hd : Id} {n : Nat} {ok ok' : Idx K → List Id → Act K → Prop}

theorem History.mono (H : ∀ s xs a, ok s xs a → ok' s xs a) : ∀ {as : List (Act K)} {s : Idx K}, History lt u hd ok n s as → History lt u hd ok' n s as := by
  intro as
  induction as with
  | nil => intro s _; trivial
  | cons a as ih =>
    intro s ⟨⟨xs, h1, h2, h3⟩, h4⟩
    exact ⟨⟨xs, h1, h2, H _ _ _ h3⟩, fun s' r e => ih (h4 s' r e)⟩

theorem History.append : ∀ {as bs : List (Act K)} {s s1 s2 : Idx K} {r1 r2 : Rounds}, History lt u hd ok n s as → acts lt u n hd s as = some (s1, r1) →
    History lt u hd ok n s1 bs → acts lt u n hd s1 bs = some (s2, r2) →
    History lt u hd ok n s (as ++ bs) ∧ acts lt u n hd s (as ++ bs) = some (s2, r1.add r2) := by
  intro as
  induction as with
  | nil =>
    intro bs s s1 s2 r1 r2 _ e h e'
    cases e
    exact ⟨h, by simpa [Rounds.add] using e'⟩
  | cons a as ih =>
    intro bs s s1 s2 r1 r2 hh e h e'
    simp only [acts] at e
    rcases c : act lt u n hd s a with _ | ⟨s3, r3⟩
    · rw [c] at e; cases e
    · rw [c] at e
      simp only at e
      rcases c' : acts lt u n hd s3 as with _ | ⟨s4, r4⟩
      · rw [c'] at e; cases e
      · rw [c'] at e; cases e
        obtain ⟨q1, q2⟩ := ih (hh.2 _ _ c) c' h e'
        refine ⟨⟨hh.1, fun s' r e => ?_⟩, ?_⟩
        · rw [c] at e; cases e; exact q1
        · simp only [List.cons_append, acts, c, q2, Option.map_some, Rounds.add, Nat.add_assoc]

/-- Some operation that is expensive, again and again. -/
theorem repeats (sw : StrictWeak lt) (b : Nat) (good : Nat → Nat → Prop) (hg : ∀ m l, good m l → l + 4 ≤ n)
    (step : ∀ m (s : Idx K) xs, s.Holds lt u hd xs → good (m + 1) xs.length → ∃ a, a.Legal hd xs ∧ ok s xs a ∧
      ∀ s' r xs', act lt u n hd s a = some (s', r) → a.Effect u xs xs' → b ≤ r.walk ∧ good m xs'.length) :
    ∀ m {s : Idx K} {xs : List Id}, s.Holds lt u hd xs → good m xs.length →
      ∃ as s' r xs', as.length = m ∧ History lt u hd ok n s as ∧ acts lt u n hd s as = some (s', r) ∧ s'.Holds lt u hd xs' ∧
        good 0 xs'.length ∧ b * m ≤ r.walk := by
  intro m
  induction m with
  | zero => intro s xs h g; exact ⟨[], s, ⟨0, 0⟩, xs, rfl, trivial, rfl, h, g, by simp⟩
  | succ m ih =>
    intro s xs h g
    obtain ⟨a, hl, hok, q⟩ := step m s xs h g
    obtain ⟨hr, ho, hc⟩ := id h
    obtain ⟨P, hP⟩ := hr.pot
    obtain ⟨s1, r1, xs1, P1, e1, hr1, ho1, hc1, ef, -⟩ := act_ok sw hP ho hc (n := n) (hg _ _ g) hl
    obtain ⟨q1, q2⟩ := q s1 r1 xs1 e1 ef
    obtain ⟨as, s2, r2, xs2, b1, b2, b3, b4, b5, b6⟩ := ih ⟨hr1.rep, ho1, hc1⟩ q2
    refine ⟨a :: as, s2, r1.add r2, xs2, by simp [b1], ⟨⟨xs, h, hl, hok⟩, fun s' r e => ?_⟩, ?_, b4, b5, ?_⟩
    · rw [e1] at e; cases e; exact b2
    · simp only [acts, e1, b3, Option.map_some]
    · simp only [Rounds.add]; rw [Nat.mul_succ]; omega

end

/-- All keys are equivalent. -/
def flat (_ _ : Unit) : Bool := false

theorem flat_sw : StrictWeak flat := ⟨fun _ => rfl, (fun h => by cases h), fun _ _ _ _ => ⟨rfl, rfl⟩⟩

theorem fresh (l : List Id) : ∃ x : Id, x ≠ 0 ∧ x ∉ l := by
  refine ⟨l.sum + 1, Nat.succ_ne_zero _, fun h => ?_⟩
  have H : ∀ (l : List Nat) (x : Nat), x ∈ l → x ≤ l.sum := by
    intro l
    induction l with
    | nil => intro x h; cases h
    | cons a l ih =>
      intro x h
      rw [List.sum_cons]
      rcases List.mem_cons.1 h with h | h
      · omega
      · have := ih x h; omega
  exact absurd (H l _ h) (Nat.not_succ_le_self _)

variable {hd : Id} {n : Nat}

theorem flat_hint {s : Idx Unit} {a b : List Id} (x : Id) : WellHinted flat false hd s (a ++ b) (.insert x () (some (hdOr hd b))) :=
  ⟨a, b, rfl, rfl, fun _ _ => rfl, fun _ _ => rfl⟩

theorem insert_effect {xs xs' : List Id} {x : Id} {hint : Option Id} (ef : (Act.insert x () hint).Effect false xs xs') :
    xs'.length = xs.length + 1 := by
  rcases ef with ef | ⟨h, -⟩
  · rw [ef.length_eq]; simp
  · cases h

/-- Insertions at the end. -/
theorem pushes (m : Nat) {s : Idx Unit} {xs : List Id} (h : s.Holds flat false hd xs) (hn : xs.length + m + 4 ≤ n) :
    ∃ as s' r xs', as.length = m ∧ History flat false hd (fun s xs a => WellHinted flat false hd s xs a ∧ EndOrErase flat false hd s xs a) n s as ∧
      acts flat false n hd s as = some (s', r) ∧ s'.Holds flat false hd xs' ∧ xs'.length = xs.length + m := by
  obtain ⟨as, s', r, xs', h1, h2, h3, h4, ⟨h5, -⟩, -⟩ := repeats (u := false) (hd := hd) (n := n)
    (ok := fun s xs a => WellHinted flat false hd s xs a ∧ EndOrErase flat false hd s xs a) flat_sw 0
    (fun j l => l + j = xs.length + m ∧ l + j + 4 ≤ n) (fun j l q => by omega) (fun j s ys hh g => by
      obtain ⟨x, hx0, hx⟩ := fresh (hd :: ys)
      have hw : WellHinted flat false hd s ys (.insert x () (some hd)) := by
        have := flat_hint (hd := hd) (s := s) (a := ys) (b := []) x
        simpa [hdOr] using this
      refine ⟨.insert x () (some hd), ⟨hx0, hx, fun q e => by cases e; simp⟩, ⟨hw, rfl, hw⟩, fun s' r xs' e ef => ⟨Nat.zero_le _, ?_⟩⟩
      have := insert_effect ef
      omega) m h (by omega)
  exact ⟨as, s', r, xs', h1, h2, h3, h4, by omega⟩

/-- With an element in the middle as the hint, looking for the point means to look for its predecessor. -/
theorem flat_point {key : Id → Unit} {h : Heap} {x y : Id} {a b : List Id} {w : Nat} (hr : Rep h hd (a ++ x :: b)) (ha : a ≠ [])
    (e : decrementS h n x = some (y, w)) : ∃ p, pointS key flat false n h hd () (some x) = some (p, w) := by
  have hf := rep_first hr
  have hnd := rep_nodup hr
  rcases a with _ | ⟨a0, a⟩
  · exact absurd rfl ha
  have h0 : x ≠ a0 := by rintro rfl; simp at hnd
  have h1 : x ≠ hd := by rintro rfl; simp at hnd
  have hf : h.left hd = a0 := hf
  simp only [pointS, hintedPointNS, hf, if_neg h0, if_neg h1, e, flat]
  by_cases q : h.right y = 0
  · exact ⟨_, by simp [q]; rfl⟩
  · exact ⟨_, by simp [q]; rfl⟩

/-- Insertions with the root as the hint. -/
theorem root_hints (b m : Nat) {s : Idx Unit} {xs : List Id} (h : s.Holds flat false hd xs) (hn : xs.length + m + 4 ≤ n) (hb : 4 ^ (b + 2) ≤ xs.length) :
    ∃ as s' r, as.length = m ∧ History flat false hd (WellHinted flat false hd) n s as ∧ acts flat false n hd s as = some (s', r) ∧ b * m ≤ r.walk := by
  obtain ⟨as, s', r, xs', h1, h2, h3, -, -, h4⟩ := repeats (u := false) (hd := hd) (n := n) (ok := WellHinted flat false hd) flat_sw b
    (fun j l => 4 ^ (b + 2) ≤ l ∧ l + j + 4 ≤ n) (fun j l q => by omega) (fun j s ys hh g => by
      obtain ⟨x, hx0, hx⟩ := fresh (hd :: ys)
      obtain ⟨a, q, c, w, rfl, ha, hc, e, hw⟩ := decrementS_root hh.1 (N := n) (by omega) g.1
      refine ⟨.insert x () (some q), ⟨hx0, hx, fun q' e => by cases e; simp⟩, flat_hint (a := a) (b := q :: c) x, fun s' r xs' e' ef => ?_⟩
      have := insert_effect ef
      obtain ⟨p, hp⟩ := flat_point (key := upd s.key x ()) hh.1 ha e
      obtain ⟨p', hp'⟩ := act_insert_walk e'
      rw [hp] at hp'; cases hp'
      exact ⟨hw, by omega, by omega⟩) m h ⟨hb, hn⟩
  exact ⟨as, s', r, h1, h2, h3, h4⟩

/-- Erasures of the last element. -/
theorem erase_lasts (b m : Nat) {s : Idx Unit} {xs : List Id} (h : s.Holds flat false hd xs) (hn : xs.length + 4 ≤ n) (hb : 4 ^ b + m ≤ xs.length) :
    ∃ as s' r, as.length = m ∧ History flat false hd (EndOrErase flat false hd) n s as ∧ acts flat false n hd s as = some (s', r) ∧ b * m ≤ r.walk := by
  obtain ⟨as, s', r, xs', h1, h2, h3, -, -, h4⟩ := repeats (u := false) (hd := hd) (n := n) (ok := EndOrErase flat false hd) flat_sw b
    (fun j l => 4 ^ b + j ≤ l ∧ l + 4 ≤ n) (fun j l q => by omega) (fun j s ys hh g => by
      have hne : ys ≠ [] := by rintro rfl; have := g.1; simp at this
      obtain ⟨c, x, rfl⟩ : ∃ c x, ys = c ++ [x] := ⟨ys.dropLast, ys.getLast hne, (List.dropLast_concat_getLast hne).symm⟩
      obtain ⟨w, e1, hw⟩ := incrementS_last hh.1 (N := n) (b := b) (by omega) (by omega)
      have hx : x ∈ c ++ [x] := by simp
      refine ⟨.erase x, hx, trivial, fun s' r xs' e ef => ?_⟩
      have e2 : xs'.length = (c ++ [x]).length - 1 := by rw [show xs' = (c ++ [x]).erase x from ef, List.length_erase_of_mem hx]
      refine ⟨?_, by omega, by omega⟩
      simp only [act, e1] at e
      rcases q : extractS n s.h hd x with _ | ⟨h', r'⟩
      · rw [q] at e; cases e
      · rw [q] at e; cases e
        simp only [Rounds.add]; omega) m h ⟨hb, hn⟩
  exact ⟨as, s', r, h1, h2, h3, h4⟩

/-- An empty index. -/
theorem empty_holds {K : Type} {lt : K → K → Bool} {u : Bool} (h0 : hd ≠ 0) (key : Id → K) (h : Heap) : (Idx.empty hd key h).Holds lt u hd [] :=
  ⟨emptyInit_rep h h0, List.Pairwise.nil, rfl⟩

theorem replace_walk {K : Type} {lt : K → K → Bool} {u : Bool} {s : Idx K} {x y : Id} {k : K} {a b : List Id} {w : Nat} {r : Rounds} {s' : Idx K}
    (hr : Rep s.h hd (a ++ x :: b)) (ha : a ≠ []) (e : decrementS s.h n x = some (y, w)) (e' : act lt u n hd s (.replace x k) = some (s', r)) : w ≤ r.walk := by
  have hf := rep_first hr
  have hnd := rep_nodup hr
  rcases a with _ | ⟨a0, a⟩
  · exact absurd rfl ha
  have h0 : x ≠ a0 := by rintro rfl; simp at hnd
  have hf : s.h.left hd = a0 := hf
  have H : ∀ {t : Bool} {v : Nat}, inPlaceS (upd s.key x k) lt u n s.h hd k x = some (t, v) → w ≤ v := by
    intro t v e1
    unfold inPlaceS at e1
    rw [hf, if_pos h0, e] at e1
    simp only [Option.map_some] at e1
    split at e1
    · cases e1
    · rename_i w3 e3
      simp only [Option.some.injEq, Prod.mk.injEq] at e3 e1
      omega
    · rename_i w3 e3
      simp only [Option.some.injEq, Prod.mk.injEq] at e3
      obtain ⟨-, rfl⟩ := e3
      rcases c' : incrementS s.h n x with _ | ⟨y', w2⟩
      · rw [c'] at e1; cases e1
      · rw [c'] at e1
        simp only [Option.some.injEq, Prod.mk.injEq] at e1
        omega
  simp only [act] at e'
  rcases c : inPlaceS (upd s.key x k) lt u n s.h hd k x with _ | ⟨_ | _, v⟩
  · rw [c] at e'; cases e'
  · rw [c] at e'
    have := H c
    simp only at e'
    rcases c1 : incrementS s.h n x with _ | ⟨next, w'⟩
    · rw [c1] at e'; cases e'
    rw [c1] at e'
    simp only at e'
    rcases c2 : extractS n s.h hd x with _ | ⟨h', r'⟩
    · rw [c2] at e'; cases e'
    rw [c2] at e'
    simp only [relink] at e'
    rcases c3 : pointS (upd s.key x k) lt u n h' hd k none with _ | ⟨⟨side, pos⟩ | q, w3⟩
    · rw [c3] at e'; cases e'
    · rw [c3] at e'
      simp only at e'
      rcases c4 : linkS n h' x side pos hd with _ | ⟨h2, f⟩
      · rw [c4] at e'; cases e'
      · rw [c4] at e'; cases e'
        simp only [Rounds.add]; omega
    · rw [c3] at e'
      simp only at e'
      rcases c4 : restoreS n h' x next hd with _ | ⟨h2, r2⟩
      · rw [c4] at e'; cases e'
      · rw [c4] at e'; cases e'
        simp only [Rounds.add]; omega
  · rw [c] at e'; cases e'
    exact H c

end MI.Ord
