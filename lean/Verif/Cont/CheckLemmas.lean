import Verif.Cont.Check
import Verif.Cont.State
/-! `invariant_()` answers `true` for every well formed index. -/
namespace MI.Cont
open MI
variable {V : Type}

namespace Layer

theorem scan_spec {L : Layer V} {val : Id → V} {hd : Id} {n : Nat} {body : Id → Option Bool} : ∀ {v u : List Id} {m s : Nat},
    L.Holds val hd (u ++ v) → (u ++ v).length + 3 ≤ n → v.length ≤ m → (∀ x ∈ v, body x = some true) →
    L.scan n hd body m (hdOr hd v) s = some (some (s + v.length))
  | [], u, m, s, w, hn, hm, hb => by
    cases m <;> simp [scan, hdOr]
  | x :: v, u, m, s, w, hn, hm, hb => by
    obtain ⟨m, rfl⟩ : ∃ k, m = k + 1 := ⟨m - 1, by simp at hm; omega⟩
    have hne : x ≠ hd := by
      rintro rfl
      exact (List.nodup_cons.1 w.nodup).1 (by simp)
    have ih := scan_spec (L := L) (val := val) (n := n) (body := body) (u := u ++ [x]) (v := v) (m := m) (s := s + 1) (by simpa using w) (by simpa using hn)
      (by simpa using hm) (fun y hy => hb y (by simp [hy]))
    show L.scan n hd body (m + 1) x s = _
    simp only [scan, if_neg hne, hb x (by simp), next_spec w hn, ih]
    simp only [List.length_cons]
    congr 2
    omega

theorem child_ne {t : Ord.T} (h : t.root ≠ 0) : t.root ∈ t.ids := Ord.root_mem h

theorem nodeCheck_spec {lt : V → V → Bool} {val : Id → V} {h : Ord.Heap} {hd : Id} {t : Ord.T} {n N : Nat} (H : Ord.Shape h hd t) (hb : t.black)
    (hN : t.RB N) (hz : t.Sized) (hs : Sorted (fun a b => lt (val a) (val b)) t.ids) (hn : t.ids.length + 3 ≤ n) {x : Id} (hx : x ∈ t.ids) :
    nodeCheck n lt val h (h.parent hd) N x = some true := by
  obtain ⟨k, c, s, l, r, rfl⟩ := Ord.exists_zip t hx
  obtain ⟨e1, e2, e3, e4, e5, e6, e7⟩ := H.read
  have hz' := (Ord.sized_plug k _).1 hz
  have zs := Ord.shape_plug.1 H
  have sorted : (∀ a ∈ l.ids, lt (val x) (val a) = false) ∧ (∀ a ∈ r.ids, lt (val a) (val x) = false) := by
    rw [Ord.ids_plug] at hs
    simp only [Ord.T.ids] at hs
    have h2 : Sorted (fun a b => lt (val a) (val b)) ((Ord.ctxL k ++ l.ids) ++ x :: (r.ids ++ Ord.ctxR k)) := by simpa using hs
    have h3 := sorted_split.1 h2
    exact ⟨fun a ha => h3.2.1 a (by simp [ha]), fun a ha => h3.2.2 a (by simp [ha])⟩
  have klen : k.length + 1 ≤ n := by
    have h1 := Ord.ctx_height k (.node c s l x r)
    have h2 := Ord.rb_height (t := Ord.plug k (.node c s l x r)) ⟨hb, N, hN⟩
    have h3 := Ord.log_le (Ord.plug k (.node c s l x r)).ids.length
    simp only [Ord.T.height] at h1
    omega
  have aug : Ord.augInvariant h x = true := by
    have al := zs.at'.2.2.2.2.2.1
    have ar := zs.at'.2.2.2.2.2.2
    have nz := zs.nz
    have hl := Ord.nodeSize_len al (fun k => nz (by simp [Ord.T.ids, k])) hz'.1.2.1
    have hr := Ord.nodeSize_len ar (fun k => nz (by simp [Ord.T.ids, k])) hz'.1.2.2
    simp only [Ord.augInvariant, e3, e4, e5, hl, hr, beq_iff_eq]
    exact hz'.1.1
  obtain ⟨m, hm, -⟩ := Ord.rb_blacks k hN
  have colour : ¬ (h.color x = .red ∧ ((h.left x ≠ 0 ∧ h.color (h.left x) = .red) ∨ (h.right x ≠ 0 ∧ h.color (h.right x) = .red))) := by
    rintro ⟨hc, hk⟩
    rw [e2] at hc
    subst hc
    simp only [Ord.T.RB] at hm
    have al := zs.at'.2.2.2.2.2.1
    have ar := zs.at'.2.2.2.2.2.2
    rcases hk with ⟨h1, h2⟩ | ⟨h1, h2⟩
    · rw [e4] at h1 h2
      cases l with
      | nil => exact h1 rfl
      | node c' s' l' x' r' =>
        have := al.2.1
        simp only [Ord.T.root] at h2
        rw [h2] at this
        have hbk := hm.1
        simp [Ord.T.black, ← this] at hbk
    · rw [e5] at h1 h2
      cases r with
      | nil => exact h1 rfl
      | node c' s' l' x' r' =>
        have := ar.2.1
        simp only [Ord.T.root] at h2
        rw [h2] at this
        have hbk := hm.2.1
        simp [Ord.T.black, ← this] at hbk
  have left : ¬ (h.left x ≠ 0 ∧ lt (val x) (val (h.left x)) = true) := by
    rintro ⟨h1, h2⟩
    rw [e4] at h1 h2
    rw [sorted.1 _ (Ord.root_mem h1)] at h2
    cases h2
  have right : ¬ (h.right x ≠ 0 ∧ lt (val (h.right x)) (val x) = true) := by
    rintro ⟨h1, h2⟩
    rw [e5] at h1 h2
    rw [sorted.2 _ (Ord.root_mem h1)] at h2
    cases h2
  simp only [nodeCheck]
  rw [if_neg colour, if_neg left, if_neg right]
  split
  · rename_i h0
    have hl : l = .nil := by
      by_contra hne
      cases l with
      | nil => exact hne rfl
      | node c' s' l' x' r' =>
        have : x' = 0 := by rw [e4] at h0; exact h0.1
        exact zs.nz (by simp [Ord.T.ids, this])
    rw [Ord.blackCount_spec H hN (Or.inl hl) klen]
    simp [aug]
  · rw [aug]

theorem localScan_spec {c : Hash.Cat} {h : Hash.Heap} {pos : Id → Nat} {buc : Nat} : ∀ {n : Nat} {x : Id} {l : List Id} {ss : Nat},
    Hash.localFrom c h n x = some l → (∀ y ∈ l, pos y = buc) → localScan c h pos buc n x ss = some (some (ss + l.length))
  | 0, x, l, ss, e, hp => by
    simp only [Hash.localFrom] at e
    split at e
    · rename_i hx
      cases e
      simp [localScan, hx]
    · cases e
  | n + 1, x, l, ss, e, hp => by
    simp only [Hash.localFrom] at e
    split at e
    · rename_i hx
      cases e
      simp [localScan, hx]
    · rename_i hx
      cases e2 : Hash.localFrom c h n (Hash.afterLocal c h x) with
      | none => rw [e2] at e; cases e
      | some l' =>
        rw [e2] at e
        cases e
        have := localScan_spec (ss := ss + 1) e2 (fun y hy => hp y (by simp [hy]))
        simp only [localScan, if_neg hx, hp x (by simp), this]
        simp
        omega

theorem bucketScan_spec {c : Hash.Cat} {eq : Id → Id → Bool} {hash : Id → Nat} {h : Hash.Heap} {a : Hash.Arr} {hd : Id} {xs : List Id} {n : Nat}
    (w : Hash.Holds c eq hash h a hd xs) (hn : xs.length ≤ n) : ∀ {k : Nat}, k ≤ a.size →
    bucketScan n c h a (fun x => hash x % a.size) xs.length k (xs.countP (fun x => decide (hash x % a.size < a.size - k))) = some true
  | 0, hk => by
    have : xs.countP (fun x => decide (hash x % a.size < a.size)) = xs.length := by
      rw [List.countP_eq_length]
      intro x _
      simpa using Nat.mod_lt _ w.1
    simp [bucketScan, this]
  | k + 1, hk => by
    have hm : a.size - (k + 1) < a.size := by omega
    have h1 := w.localWalk hn hm
    have h2 := localScan_spec (pos := fun x => hash x % a.size) (buc := a.size - (k + 1)) (ss := 0) h1 (fun y hy => by
      have := (List.mem_filter.1 hy).2
      simpa using this)
    have h3 := w.bucketSize hn hm
    have ih := bucketScan_spec w hn (k := k) (by omega)
    simp only [bucketScan, h2, h3]
    have e : ((xs.filter fun x => hash x % a.size == a.size - (k + 1)).length) = xs.countP (fun x => hash x % a.size == a.size - (k + 1)) := by
      rw [List.countP_eq_length_filter]
    rw [Nat.zero_add, e, if_neg (by simp)]
    have e2 : xs.countP (fun x => decide (hash x % a.size < a.size - (k + 1))) + xs.countP (fun x => hash x % a.size == a.size - (k + 1)) =
        xs.countP (fun x => decide (hash x % a.size < a.size - k)) := by
      clear ih h1 h2 h3 e w hn
      induction xs with
      | nil => rfl
      | cons y xs ih =>
        simp only [List.countP_cons]
        have : (if decide (hash y % a.size < a.size - (k + 1)) = true then 1 else 0) + (if (hash y % a.size == a.size - (k + 1)) = true then 1 else 0) =
            (if decide (hash y % a.size < a.size - k) = true then 1 else 0) := by
          simp only [decide_eq_true_eq, beq_iff_eq]
          split <;> split <;> split <;> omega
        omega
    rw [e2]
    exact ih

theorem rndScan_spec {s : Rnd.Arr} {hd : Id} {xs : List Id} (w : Rnd.Rep s hd xs) : ∀ {v u : List Id} {m k : Nat}, xs = u ++ v → v.length + 1 ≤ m →
    rndScan hd s m (hdOr hd v) k = some (some (k + v.length))
  | [], u, m, k, e, hm => by
    obtain ⟨m, rfl⟩ : ∃ j, m = j + 1 := ⟨m - 1, by omega⟩
    have h1 := Rnd.Rep.up_end w
    have h2 := Rnd.Rep.arr_end w
    simp [rndScan, hdOr, h1, h2]
  | x :: v, u, m, k, e, hm => by
    obtain ⟨m, rfl⟩ : ∃ j, m = j + 1 := ⟨m - 1, by simp at hm; omega⟩
    have hi : u.length < xs.length := by rw [e]; simp
    have hx : xs[u.length] = x := by simp [e]
    have h1 := Rnd.Rep.up w hi
    have h2 := Rnd.Rep.arr w hi
    rw [hx] at h1 h2
    have hne : x ≠ hd := by
      have := Rnd.Rep.nodup w
      rw [List.nodup_append] at this
      exact this.2.2 x (by rw [e]; simp) hd (by simp)
    have hnext : Rnd.increment s x = hdOr hd v := by
      have := next_spec (L := (.rnd s : Layer Unit)) (val := fun _ => ()) (hd := hd) (u := u) (x := x) (v := v) (n := (u ++ x :: v).length + 3) (e ▸ w) (Nat.le_refl _)
      exact Option.some.inj this
    have ih := rndScan_spec w (v := v) (u := u ++ [x]) (m := m) (k := k + 1) (by simp [e]) (by simp at hm; omega)
    show rndScan hd s (m + 1) x k = _
    simp only [rndScan, h1, h2, hnext, ih]
    rw [if_neg (by simp), if_neg hne]
    simp
    omega

/-- The check of one index. -/
theorem check_spec {L : Layer V} {val : Id → V} {hd : Id} {xs : List Id} {n : Nat} (w : L.Holds val hd xs) (ok : L.spec.Ok) (hn : xs.length + 3 ≤ n) :
    L.check n hd val xs.length = some true := by
  have hf := first_spec w
  have nd := w.nodup
  have nonempty : ∀ {y : Id} {ys : List Id}, xs = y :: ys → ¬ (xs.length = 0 ∨ L.first hd = hd) := by
    rintro y ys rfl
    rw [hf]
    simp only [hdOr, List.length_cons]
    rintro (h | h)
    · omega
    · simp only [List.headD_cons] at h
      rw [h] at nd
      simp at nd
  have dist : L.scan n hd (fun _ => some true) n (L.first hd) 0 = some (some xs.length) := by
    rw [hf, scan_spec (u := []) w hn (by omega) (fun _ _ => rfl)]
    simp
  cases hx : xs with
  | nil =>
    subst hx
    cases L with
    | ord u lt h =>
      obtain ⟨t, h1, h2, h3, h4⟩ := w.1
      have hl := h1.first
      have hr := h1.last
      rw [h4] at hl hr
      simp only [check, hf]
      simp [hl, hr, hdOr]
    | hash c eq hfn pol ml h a =>
      simp only [check, hf]
      simp [hdOr]
    | seq h =>
      have h1 : Seq.Seg h hd [] hd := w.2 (hd, []) (by simp)
      simp only [check, hf]
      simp [hdOr, h1.1, h1.2]
    | rnd s =>
      simp only [check, hf]
      simp [hdOr]
  | cons y ys =>
    have hne := nonempty hx
    rw [← hx]
    cases L with
    | ord u lt h =>
      obtain ⟨t, h1, ⟨hb, N, hN⟩, h3, h4⟩ := w.1
      have hs := good_sorted ok w.2
      have tne : t ≠ .nil := by
        rintro rfl
        rw [hx] at h4
        simp [Ord.T.ids] at h4
      have hz0 : 0 ∉ t.ids := fun k => h1.shape.nz (by simp [k])
      have hlen : t.ids.length ≤ n := by rw [h4]; omega
      have hmin := Ord.minimum_head h1.shape.at' hz0 tne hlen hd
      have hmax := Ord.maximum_last h1.shape.at' hz0 tne hlen hd
      have hl := h1.first
      have hr := h1.last
      have hroot := h1.shape.root
      have scan2 : (Layer.ord u lt h : Layer V).scan n hd (nodeCheck n lt val h (h.parent hd) N) n ((Layer.ord u lt h : Layer V).first hd) 0 = some (some xs.length) := by
        rw [hf, scan_spec (u := []) w hn (by omega) (fun x hx => nodeCheck_spec h1.shape hb hN h3 (by rw [h4]; exact hs) (by rw [h4]; exact hn) (by rw [h4]; exact hx))]
        simp
      have hbc : Ord.blackCount n h (h.left hd) (h.parent hd) = some N := by
        have hfst : h.left hd ∈ t.ids := by
          rw [hl, h4, hx]
          simp [hdOr]
        obtain ⟨k, c, s, l, r, e⟩ := Ord.exists_zip t hfst
        have hleft : l = .nil := by
          have hh : hdOr hd t.ids = h.left hd := hl.symm
          rw [e, Ord.ids_plug] at hh
          simp only [Ord.T.ids] at hh
          have nd2 := h1.shape.nodup
          rw [e, Ord.ids_plug] at nd2
          simp only [Ord.T.ids] at nd2
          cases l with
          | nil => rfl
          | node c' s' l' x' r' =>
            exfalso
            have nd3 := (List.nodup_cons.1 nd2).2
            have key : ∀ (A B : List Id) (z : Id), A ≠ [] → (A ++ z :: B).Nodup → hdOr hd (A ++ z :: B) ≠ z := by
              intro A B z hA hnd
              cases A with
              | nil => exact absurd rfl hA
              | cons a A =>
                intro hc
                simp only [List.cons_append, hdOr, List.headD_cons] at hc
                rw [hc] at hnd
                simp at hnd
            refine key (Ord.ctxL k ++ (l'.ids ++ x' :: r'.ids)) (r.ids ++ Ord.ctxR k) (h.left hd) (by simp) (by simpa [Ord.T.ids] using nd3) ?_
            simpa [Ord.T.ids] using hh
        have klen : k.length + 1 ≤ n := by
          have g1 := Ord.ctx_height k (.node c s l (h.left hd) r)
          have g2 := Ord.rb_height (t := t) ⟨hb, N, hN⟩
          have g3 := Ord.log_le t.ids.length
          rw [← e] at g1
          simp only [Ord.T.height] at g1
          rw [h4] at g2 g3
          omega
        exact Ord.blackCount_spec (e ▸ h1.shape) (e ▸ hN) (Or.inl hleft) klen
      simp only [check]
      rw [if_neg hne, dist]
      simp only [ne_eq, not_true_eq_false, if_false, hbc, scan2]
      simp only [hroot, hmin, hmax]
      rw [hl, hr]
      simp
    | hash c eq hfn pol ml h a =>
      simp only [check]
      rw [if_neg hne, dist]
      have := bucketScan_spec w.2 (n := n) (by omega) (Nat.le_refl a.size)
      simp only [ne_eq, not_true_eq_false, if_false]
      have e0 : xs.countP (fun x => decide (hfn (val x) % a.size < a.size - a.size)) = 0 := by simp
      rw [e0] at this
      exact this
    | seq h =>
      have hc := Seq.Fam_single.1 w
      have body : ∀ x ∈ xs, (fun x => some (decide (h.prior (h.next x) = x ∧ h.next (h.prior x) = x))) x = some true := by
        intro x hx
        obtain ⟨u, v, rfl⟩ := List.append_of_mem hx
        have ch : Seq.Chain h (hd :: (u ++ x :: v) ++ [hd]) := (Seq.Circ_iff.1 hc).2
        obtain ⟨u', e1⟩ := Seq.lastOr_spec hd u
        obtain ⟨v', e2⟩ := Seq.hdOr_spec hd v
        have e3 : hd :: (u ++ x :: v) ++ [hd] = u' ++ Seq.lastOr hd u :: x :: hdOr hd v :: v' := by
          have : hd :: (u ++ x :: v) ++ [hd] = (hd :: u) ++ x :: (v ++ [hd]) := by simp
          rw [this, e1, e2]
          simp
        rw [e3] at ch
        have c1 := Seq.chain_next ch
        have c2 := Seq.chain_next (u := u' ++ [Seq.lastOr hd u]) (p := x) (q := hdOr hd v) (v := v') (by simpa using ch)
        simp [c1.1, c1.2, c2.1, c2.2]
      have sc := scan_spec (u := []) (s := 0) w hn (Nat.le_trans (Nat.le_add_right _ 3) hn) body
      simp only [check]
      rw [if_neg hne, hf, sc]
      simp
    | rnd s =>
      have hcap : ¬ xs.length > s.cap := by have := w.1; have := w.2.1; omega
      have sc := rndScan_spec w (v := xs) (u := []) (m := n + 1) (k := 0) rfl (by omega)
      simp only [check]
      rw [if_neg hcap, if_neg hne, hf, sc]
      simp

end Layer

theorem checkAll_spec {val : Id → V} {hd : Id} {els : List Id} {n : Nat} (hn : els.length + 3 ≤ n) : ∀ {Ls : List (Layer V)} {xss : List (List Id)},
    Fit val hd els Ls xss → OkAll (specs Ls) → checkAll n hd val els.length Ls = some true
  | [], xss, f, ok => rfl
  | L :: Ls, xss, f, ok => by
    obtain ⟨xs, yss, rfl, w, p, f2⟩ := f.cases
    have h1 := Layer.check_spec (n := n) w (ok L.spec (by simp [specs])) (by rw [p.length_eq]; exact hn)
    rw [p.length_eq] at h1
    unfold checkAll
    rw [h1]
    exact checkAll_spec hn f2 (fun S hS => ok S (by simp only [specs, List.map_cons, List.mem_cons] at hS ⊢; exact Or.inr hS))

theorem Sound.check {val : Id → V} {c : Container V} (s : Sound val c) : c.check val = some true := by
  unfold Container.check
  rw [s.count]
  exact checkAll_spec s.budget s.fit s.ok

end MI.Cont

/-! ## What a check that succeeds says -/
namespace MI.Cont
open MI
variable {V : Type}

namespace Layer

theorem scan_walk {L : Layer V} {hd : Id} {n : Nat} {body : Id → Option Bool} : ∀ {m : Nat} {x : Id} {s k : Nat},
    L.scan n hd body m x s = some (some k) → ∃ l, L.walkFrom n hd m x = some l ∧ k = s + l.length ∧ ∀ y ∈ l, body y = some true
  | 0, x, s, k, e => by
    simp only [scan] at e
    split at e
    · rename_i hx
      cases e
      exact ⟨[], by simp [walkFrom, hx], by simp, by simp⟩
    · cases e
  | m + 1, x, s, k, e => by
    simp only [scan] at e
    split at e
    · rename_i hx
      cases e
      exact ⟨[], by simp [walkFrom, hx], by simp, by simp⟩
    · rename_i hx
      split at e
      · cases e
      · cases e
      · rename_i hb
        split at e
        · cases e
        · rename_i y hy
          obtain ⟨l, h1, h2, h3⟩ := scan_walk e
          refine ⟨x :: l, by simp [walkFrom, hx, hy, h1], by simp [h2]; omega, ?_⟩
          intro z hz
          rcases List.mem_cons.1 hz with rfl | hz
          · exact hb
          · exact h3 z hz

theorem rndScan_walk {s : Rnd.Arr} {hd : Id} {n : Nat} : ∀ {m : Nat} {x : Id} {i k : Nat},
    rndScan hd s (m + 1) x i = some (some k) → ∃ l, (Layer.rnd s : Layer V).walkFrom n hd m x = some l ∧ k = i + l.length
  | 0, x, i, k, e => by
    simp only [rndScan] at e
    split at e
    · cases e
    · split at e
      · rename_i hx
        cases e
        exact ⟨[], by simp [walkFrom, hx], by simp⟩
      · cases e
  | m + 1, x, i, k, e => by
    rw [rndScan] at e
    split at e
    · cases e
    · split at e
      · rename_i hx
        cases e
        exact ⟨[], by simp [walkFrom, hx], by simp⟩
      · rename_i hx
        obtain ⟨l, h1, h2⟩ := rndScan_walk (n := n) e
        exact ⟨x :: l, by simp [walkFrom, hx, next, h1], by simp [h2]; omega⟩

/-- An index that passes the check has as many elements as the container has counted. -/
theorem check_walk {L : Layer V} {val : Id → V} {hd : Id} {n size : Nat} (e : L.check n hd val size = some true) :
    ∃ l, L.walk n hd = some l ∧ l.length = size := by
  have empty : size = 0 → L.first hd = hd → ∃ l, L.walk n hd = some l ∧ l.length = size := by
    intro h1 h2
    refine ⟨[], ?_, by simp [h1]⟩
    unfold walk
    rw [h2]
    cases n <;> simp [walkFrom]
  cases L with
  | ord u lt h =>
    simp only [check] at e
    split at e
    · simp only [Option.some.injEq, decide_eq_true_eq] at e
      exact empty e.1 e.2.1
    · split at e
      · cases e
      · cases e
      · rename_i s hs
        obtain ⟨l, h1, h2, -⟩ := scan_walk hs
        split at e
        · cases e
        · rename_i hne
          exact ⟨l, h1, by omega⟩
  | hash c eq hfn pol ml h a =>
    simp only [check] at e
    split at e
    · simp only [Option.some.injEq, decide_eq_true_eq] at e
      exact empty e.1 e.2
    · split at e
      · cases e
      · cases e
      · rename_i s hs
        obtain ⟨l, h1, h2, -⟩ := scan_walk hs
        split at e
        · cases e
        · rename_i hne
          exact ⟨l, h1, by omega⟩
  | seq h =>
    simp only [check] at e
    split at e
    · simp only [Option.some.injEq, decide_eq_true_eq] at e
      exact empty e.1 e.2.1
    · split at e
      · cases e
      · cases e
      · rename_i s hs
        obtain ⟨l, h1, h2, -⟩ := scan_walk hs
        simp only [Option.some.injEq, beq_iff_eq] at e
        exact ⟨l, h1, by omega⟩
  | rnd s =>
    simp only [check] at e
    split at e
    · cases e
    · split at e
      · simp only [Option.some.injEq, decide_eq_true_eq] at e
        exact empty e.1 e.2
      · split at e
        · cases e
        · cases e
        · rename_i k hk
          obtain ⟨l, h1, h2⟩ := rndScan_walk (V := V) (n := n) hk
          simp only [Option.some.injEq, beq_iff_eq] at e
          exact ⟨l, h1, by omega⟩

end Layer

theorem checkAll_mem {val : Id → V} {hd : Id} {n size : Nat} : ∀ {Ls : List (Layer V)}, checkAll n hd val size Ls = some true →
    ∀ L ∈ Ls, L.check n hd val size = some true
  | [], _, L, h => by simp at h
  | K :: Ls, e, L, h => by
    unfold checkAll at e
    split at e
    · cases e
    · cases e
    · rename_i hk
      rcases List.mem_cons.1 h with rfl | h
      · exact hk
      · exact checkAll_mem e L h

end MI.Cont
