import Verif.Ord.CallsLemmas
import Verif.Ord.RankLemmas
import Verif.Ord.PointLemmas
import Verif.Spec.Always
/-! Ordered indices whose comparison objects answer anything (helper lemmas). -/
namespace MI.Ord
open MI

section
variable {Q : Type}

/-! ## Searches for link points -/

theorem descendA_any (g : Id → Asks Q Bool) {h : Heap} {hd : Id} (t : T) : ∀ {k : Ctx} {n : Nat},
    At h (ctxPar hd k) t → 0 ∉ t.ids → t.height + 1 ≤ n →
    (descendA g h n t.root (ctxPar hd k) (ctxSide k)).Always fun r => ∃ k', r = some (ctxPar hd k', ctxSide k') ∧ plug k t = plug k' .nil := by
  induction t with
  | nil =>
    intro k n _ _ hn
    cases n with
    | zero => omega
    | succ n => exact ⟨k, rfl, rfl⟩
  | node c s l x r ihl ihr =>
    intro k n ha h0 hn
    obtain ⟨_, _, _, hl, hr, al, ar⟩ := ha
    cases n with
    | zero => omega
    | succ n =>
      simp only [T.ids, List.mem_append, List.mem_cons, not_or] at h0
      simp only [T.height] at hn
      have hx0 : x ≠ 0 := fun h => h0.2.1 h.symm
      rw [root_node, descendA, if_neg hx0, hl, hr]
      refine Asks.Always.any _ fun b => ?_
      cases b with
      | true => exact ihl (k := ⟨.left, c, s, x, r⟩ :: k) al h0.1 (n := n) (by omega)
      | false => exact ihr (k := ⟨.right, c, s, x, l⟩ :: k) ar h0.2.2 (n := n) (by omega)

/-- What a descent finds: a free place of the tree. -/
def Found (h : Heap) (hd : Id) (xs : List Id) (r : Option (Id × Side)) : Prop :=
  ∃ pos side u v, r = some (pos, side) ∧ xs = u ++ v ∧ PointAt h hd side pos u v ∧
    (side = .left → pos = hdOr hd v) ∧ (side = .right → u ≠ [] ∧ pos = u.getLastD hd)

theorem descendA_point (g : Id → Asks Q Bool) {h : Heap} {hd : Id} {xs : List Id} {n : Nat} (hr : Rep h hd xs) (hn : xs.length + 3 ≤ n) :
    (descendA g h n (h.parent hd) hd .left).Always (Found h hd xs) := by
  obtain ⟨t, R, hb, hs, rfl⟩ := hr
  rw [R.shape.root]
  refine (descendA_any g t (k := []) (hd := hd) (n := n) R.shape.at' (fun e => R.shape.nz (by simp [e]))
    (by have := height_le t; omega)).mono ?_
  rintro r ⟨k', rfl, e⟩
  simp only [plug] at e
  subst e
  refine ⟨_, _, ctxL k', ctxR k', rfl, by rw [ids_plug]; simp [T.ids], ⟨k', R, hb, hs, rfl, rfl, rfl, rfl⟩, ?_, ?_⟩
  · intro hside
    cases k' with
    | nil => rfl
    | cons f k' =>
      have hf : f.side = .left := hside
      simp [ctxR, hf, ctxPar, hdOr]
  · intro hside
    cases k' with
    | nil => cases hside
    | cons f k' =>
      have hf : f.side = .right := hside
      simp [ctxL, hf, ctxPar]

/-- A search for a link point ends with an element or with a free place of the tree. -/
def AnyPoint (h : Heap) (hd : Id) (xs : List Id) (r : Option Point) : Prop :=
  (∃ y ∈ xs, r = some (.reject y)) ∨ ∃ side pos u v, r = some (.accept side pos) ∧ xs = u ++ v ∧ PointAt h hd side pos u v

variable {K : Type} (key : Id → K) {h : Heap} {hd : Id} {xs : List Id} {n : Nat}

theorem linkPointNA_any (hr : Rep h hd xs) (hn : xs.length + 3 ≤ n) (k : K) : (linkPointNA key n h hd k).Always (AnyPoint h hd xs) := by
  unfold linkPointNA
  refine (descendA_point _ hr hn).then ?_
  rintro r ⟨pos, side, u, v, rfl, e, p, -⟩
  exact Or.inr ⟨side, pos, u, v, rfl, e, p⟩

theorem lowerLinkPointA_any (hr : Rep h hd xs) (hn : xs.length + 3 ≤ n) (k : K) : (lowerLinkPointA key n h hd k).Always (AnyPoint h hd xs) := by
  unfold lowerLinkPointA
  refine (descendA_point _ hr hn).then ?_
  rintro r ⟨pos, side, u, v, rfl, e, p, -⟩
  exact Or.inr ⟨side, pos, u, v, rfl, e, p⟩

theorem linkPointUA_any (hr : Rep h hd xs) (hn : xs.length + 3 ≤ n) (k : K) : (linkPointUA key n h hd k).Always (AnyPoint h hd xs) := by
  unfold linkPointUA
  refine (descendA_point _ hr hn).then ?_
  rintro r ⟨pos, side, u, v, rfl, rfl, p, hL, hR⟩
  simp only
  have hfirst := rep_first hr
  by_cases c : side = .left ∧ pos = h.left hd
  · rw [if_pos c]
    obtain ⟨rfl, -⟩ := c
    exact Or.inr ⟨_, pos, u, v, rfl, rfl, p⟩
  · rw [if_neg c]
    have hu : u ≠ [] := by
      rintro rfl
      cases side with
      | left => exact c ⟨rfl, by rw [hL rfl, hfirst]; rfl⟩
      | right => exact (hR rfl).1 rfl
    obtain ⟨w, z, rfl⟩ := (List.eq_nil_or_concat' u).resolve_left hu
    have hz : (if side = .left then decrement h n pos else some pos) = some z := by
      cases side with
      | left =>
        rw [if_pos rfl, hL rfl]
        cases v with
        | nil =>
          rw [List.append_nil] at hr
          rw [show hdOr hd [] = hd from rfl, decrement_end hr (by simp), List.getLastD_concat]
        | cons b v =>
          rw [show hdOr hd (b :: v) = b from rfl, decrement_spec hr (by simp) hn, List.getLastD_concat]
      | right => rw [if_neg (by simp), (hR rfl).2, List.getLastD_concat]
    rw [hz]
    simp only
    refine Asks.Always.any _ fun b => ?_
    cases b with
    | true => exact Or.inr ⟨side, pos, _, v, rfl, rfl, p⟩
    | false => exact Or.inl ⟨z, by simp, rfl⟩

/-- The positions a hint may designate. -/
theorem hint_split {p : Id} (hp : p ∈ hd :: xs) : ∃ b a, xs = b ++ a ∧ p = hdOr hd a := by
  rcases List.mem_cons.1 hp with rfl | hm
  · exact ⟨xs, [], by simp, rfl⟩
  · obtain ⟨b, a, rfl⟩ := List.append_of_mem hm
    exact ⟨b, p :: a, rfl, rfl⟩

theorem hintedPointUA_any (hr : Rep h hd xs) (hn : xs.length + 3 ≤ n) (k : K) {p : Id} (hp : p ∈ hd :: xs) :
    (hintedPointUA key n h hd k p).Always (AnyPoint h hd xs) := by
  obtain ⟨b, a, rfl, rfl⟩ := hint_split hp
  have hfirst := rep_first hr
  have hlast := rep_last hr
  have hnd := rep_nodup hr
  have hU := linkPointUA_any key hr hn k
  unfold hintedPointUA
  by_cases hb : b = []
  · subst hb
    rw [if_pos (by rw [hfirst]; rfl)]
    by_cases hc : h.parent hd = 0
    · rw [if_neg (by simp [hc])]; exact hU
    · rw [if_pos hc]
      refine Asks.Always.any _ fun b => ?_
      cases b with
      | false => exact hU
      | true =>
        cases a with
        | nil => exact absurd ((rep_root hr).2 rfl) hc
        | cons p a => exact Or.inr ⟨.left, p, [], p :: a, rfl, rfl, pointAt_left (u := []) hr (first_left hr)⟩
  · have hne : hdOr hd a ≠ h.left hd := by
      rw [hfirst]
      cases b with
      | nil => exact absurd rfl hb
      | cons c b =>
        cases a with
        | nil => intro e; have : hd = c := e; subst this; simp at hnd
        | cons p a => intro e; have : p = c := e; subst this; simp at hnd
    rw [if_neg hne]
    obtain ⟨w, z, rfl⟩ := (List.eq_nil_or_concat' b).resolve_left hb
    cases a with
    | nil =>
      rw [List.append_nil] at *
      rw [if_pos (show hdOr hd [] = hd from rfl), hlast, List.getLastD_concat]
      refine Asks.Always.any _ fun b => ?_
      cases b with
      | false => exact hU
      | true => exact Or.inr ⟨.right, z, w ++ [z], [], rfl, by simp, pointAt_right hr (last_right hr)⟩
    | cons p a =>
      have hph : p ≠ hd := by rintro rfl; simp at hnd
      rw [if_neg (show hdOr hd (p :: a) ≠ hd from hph), show hdOr hd (p :: a) = p from rfl, decrement_spec hr (by simp) hn,
        List.getLastD_concat]
      simp only
      refine Asks.Always.any _ fun b => ?_
      cases b with
      | false => exact hU
      | true =>
        refine Asks.Always.any _ fun b => ?_
        cases b with
        | false => exact hU
        | true =>
          have e : (w ++ [z]) ++ p :: a = w ++ z :: p :: a := by simp
          have hr' := hr
          rw [e] at hr'
          obtain ⟨hp1, hp2⟩ := pointAt_between hr'
          by_cases hr0 : h.right z = 0
          · simp only [if_true, if_pos hr0]
            exact Or.inr ⟨.right, z, w ++ [z], p :: a, rfl, rfl, hp1 hr0⟩
          · simp only [if_true, if_neg hr0]
            exact Or.inr ⟨.left, p, w ++ [z], p :: a, rfl, rfl, hp2 p a rfl hr0⟩

theorem hintedPointNA_any (hr : Rep h hd xs) (hn : xs.length + 3 ≤ n) (k : K) {p : Id} (hp : p ∈ hd :: xs) :
    (hintedPointNA key n h hd k p).Always (AnyPoint h hd xs) := by
  obtain ⟨b, a, rfl, rfl⟩ := hint_split hp
  have hfirst := rep_first hr
  have hlast := rep_last hr
  have hnd := rep_nodup hr
  have hU := linkPointNA_any key hr hn k
  have hLo := lowerLinkPointA_any key hr hn k
  unfold hintedPointNA
  by_cases hb : b = []
  · subst hb
    rw [if_pos (by rw [hfirst]; rfl)]
    by_cases hc : h.parent hd = 0
    · rw [if_neg (by simp [hc])]; exact hLo
    · rw [if_pos hc]
      refine Asks.Always.any _ fun b => ?_
      cases b with
      | true => exact hLo
      | false =>
        cases a with
        | nil => exact absurd ((rep_root hr).2 rfl) hc
        | cons p a => exact Or.inr ⟨.left, p, [], p :: a, rfl, rfl, pointAt_left (u := []) hr (first_left hr)⟩
  · have hne : hdOr hd a ≠ h.left hd := by
      rw [hfirst]
      cases b with
      | nil => exact absurd rfl hb
      | cons c b =>
        cases a with
        | nil => intro e; have : hd = c := e; subst this; simp at hnd
        | cons p a => intro e; have : p = c := e; subst this; simp at hnd
    rw [if_neg hne]
    obtain ⟨w, z, rfl⟩ := (List.eq_nil_or_concat' b).resolve_left hb
    cases a with
    | nil =>
      rw [List.append_nil] at *
      rw [if_pos (show hdOr hd [] = hd from rfl), hlast, List.getLastD_concat]
      refine Asks.Always.any _ fun b => ?_
      cases b with
      | true => exact hU
      | false => exact Or.inr ⟨.right, z, w ++ [z], [], rfl, by simp, pointAt_right hr (last_right hr)⟩
    | cons p a =>
      have hph : p ≠ hd := by rintro rfl; simp at hnd
      rw [if_neg (show hdOr hd (p :: a) ≠ hd from hph), show hdOr hd (p :: a) = p from rfl, decrement_spec hr (by simp) hn,
        List.getLastD_concat]
      simp only
      refine Asks.Always.any _ fun b => ?_
      cases b with
      | true => exact hU
      | false =>
        refine Asks.Always.any _ fun b => ?_
        cases b with
        | true => exact hLo
        | false =>
          have e : (w ++ [z]) ++ p :: a = w ++ z :: p :: a := by simp
          have hr' := hr
          rw [e] at hr'
          obtain ⟨hp1, hp2⟩ := pointAt_between hr'
          by_cases hr0 : h.right z = 0
          · simp only [Bool.not_false, if_true, if_pos hr0]
            exact Or.inr ⟨.right, z, w ++ [z], p :: a, rfl, rfl, hp1 hr0⟩
          · simp only [Bool.not_false, if_true, if_neg hr0]
            exact Or.inr ⟨.left, p, w ++ [z], p :: a, rfl, rfl, hp2 p a rfl hr0⟩

/-! ## In-place checks -/

theorem inPlaceUA_any (hr : Rep h hd xs) (hn : xs.length + 3 ≤ n) (k : K) {x : Id} (hx : x ∈ xs) :
    (inPlaceUA key n h hd k x).Always fun r => ∃ b, r = some b := by
  obtain ⟨u, v, rfl⟩ := List.append_of_mem hx
  have hfirst := rep_first hr
  have hinc := increment_spec hr hn
  unfold inPlaceUA
  refine Asks.Always.then (P := fun r => ∃ b, r = some b) ?_ ?_
  · by_cases c : x ≠ h.left hd
    · rw [if_pos c]
      have hu : u ≠ [] := by rintro rfl; exact c (by rw [hfirst]; rfl)
      rw [decrement_spec hr hu hn]
      exact Asks.Always.any _ fun b => ⟨_, rfl⟩
    · rw [if_neg c]
      exact ⟨_, rfl⟩
  · rintro r ⟨b, rfl⟩
    cases b with
    | false => exact ⟨_, rfl⟩
    | true =>
      simp only
      rw [hinc]
      simp only
      split
      · exact ⟨_, rfl⟩
      · exact Asks.Always.any _ fun b => ⟨_, rfl⟩

theorem inPlaceNA_any (hr : Rep h hd xs) (hn : xs.length + 3 ≤ n) (k : K) {x : Id} (hx : x ∈ xs) :
    (inPlaceNA key n h hd k x).Always fun r => ∃ b, r = some b := by
  obtain ⟨u, v, rfl⟩ := List.append_of_mem hx
  have hfirst := rep_first hr
  have hinc := increment_spec hr hn
  unfold inPlaceNA
  refine Asks.Always.then (P := fun r => ∃ b, r = some b) ?_ ?_
  · by_cases c : x ≠ h.left hd
    · rw [if_pos c]
      have hu : u ≠ [] := by rintro rfl; exact c (by rw [hfirst]; rfl)
      rw [decrement_spec hr hu hn]
      exact Asks.Always.any _ fun b => ⟨_, rfl⟩
    · rw [if_neg c]
      exact ⟨_, rfl⟩
  · rintro r ⟨b, rfl⟩
    cases b with
    | false => exact ⟨_, rfl⟩
    | true =>
      simp only
      rw [hinc]
      simp only
      split
      · exact ⟨_, rfl⟩
      · exact Asks.Always.any _ fun b => ⟨_, rfl⟩

end

/-! ## Lookup -/

section
variable {Q : Type}

theorem boundLoopA_any (q : Id → Asks Q Bool) {h : Heap} (t : T) : ∀ {p y : Id} {n : Nat}, At h p t → 0 ∉ t.ids → t.height + 1 ≤ n →
    (boundLoopA q h n t.root y).Always fun r => ∃ u v, t.ids = u ++ v ∧ r = some (hdOr y v) := by
  induction t with
  | nil =>
    intro p y n _ _ hn
    cases n with
    | zero => omega
    | succ n => exact ⟨[], [], rfl, rfl⟩
  | node c s l x r ihl ihr =>
    intro p y n ha h0 hn
    obtain ⟨_, _, _, hl, hr, al, ar⟩ := ha
    cases n with
    | zero => omega
    | succ n =>
      simp only [T.ids, List.mem_append, List.mem_cons, not_or] at h0
      simp only [T.height] at hn
      have hx0 : x ≠ 0 := fun h => h0.2.1 h.symm
      rw [root_node, boundLoopA, if_neg hx0, hl, hr]
      refine Asks.Always.any _ fun b => ?_
      cases b with
      | true =>
        refine (ihl al h0.1 (by omega)).mono ?_
        rintro q0 ⟨u, v, e, rfl⟩
        exact ⟨u, v ++ x :: r.ids, by simp [T.ids, e], by rw [hdOr_append]; rfl⟩
      | false =>
        refine (ihr ar h0.2.2 (by omega)).mono ?_
        rintro q0 ⟨u, v, e, rfl⟩
        exact ⟨l.ids ++ x :: u, v, by simp [T.ids, e], rfl⟩

theorem rangeLoopA_any (b a lo up : Id → Asks Q Bool) {h : Heap} (t : T) : ∀ {p y : Id} {n : Nat}, At h p t → 0 ∉ t.ids → t.height + 2 ≤ n →
    (rangeLoopA b a lo up h n t.root y).Always fun r => ∃ u m v, t.ids = u ++ (m ++ v) ∧ r = some (hdOr y (m ++ v), hdOr y v) := by
  induction t with
  | nil =>
    intro p y n _ _ hn
    cases n with
    | zero => omega
    | succ n => exact ⟨[], [], [], rfl, rfl⟩
  | node c s l x r ihl ihr =>
    intro p y n ha h0 hn
    obtain ⟨_, _, _, hl, hr, al, ar⟩ := ha
    cases n with
    | zero => omega
    | succ n =>
      simp only [T.ids, List.mem_append, List.mem_cons, not_or] at h0
      simp only [T.height] at hn
      have hx0 : x ≠ 0 := fun h => h0.2.1 h.symm
      rw [root_node, rangeLoopA, if_neg hx0, hl, hr]
      refine Asks.Always.any _ fun c1 => ?_
      cases c1 with
      | true =>
        refine (ihr ar h0.2.2 (by omega)).mono ?_
        rintro q ⟨u, m, v, e, rfl⟩
        exact ⟨l.ids ++ x :: u, m, v, by simp [T.ids, e], rfl⟩
      | false =>
        refine Asks.Always.any _ fun c2 => ?_
        cases c2 with
        | true =>
          refine (ihl al h0.1 (by omega)).mono ?_
          rintro q ⟨u, m, v, e, rfl⟩
          refine ⟨u, m, v ++ x :: r.ids, by simp [T.ids, e], ?_⟩
          rw [← List.append_assoc m v, hdOr_append y (m ++ v), hdOr_append y v]; rfl
        | false =>
          refine (boundLoopA_any lo l al h0.1 (by omega)).then ?_
          rintro q1 ⟨u, m, e1, rfl⟩
          refine (boundLoopA_any up r ar h0.2.2 (by omega)).then ?_
          rintro q2 ⟨m', v, e2, rfl⟩
          refine ⟨u, m ++ x :: m', v, by simp [T.ids, e1, e2], ?_⟩
          simp only [List.append_assoc, List.cons_append]
          rw [hdOr_append y m]; rfl

end
end MI.Ord
