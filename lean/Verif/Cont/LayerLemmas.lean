import Verif.Cont.Spec
import Verif.Hash.History
import Verif.Ord.SearchLemmas
import Verif.Ord.Extract4
import Verif.Seq.IndexLemmas
import Verif.Rnd.Ops
import Verif.Hash.Sizes
/-! The operations of one index: effect on the elements it holds. -/
namespace MI.Cont
open MI
variable {V : Type}

theorem eqv_ok {eq : V → V → Bool} {hf : V → Nat} (eh : EqHash eq hf) (val : Id → V) :
    EqHash (Layer.eqv eq val) (fun x => hf (val x)) := eh.comap val

/-- Split at an element. -/
theorem erase_split {x : Id} {u v : List Id} (nd : (u ++ x :: v).Nodup) : (u ++ x :: v).erase x = u ++ v := by
  have : x ∉ u := fun k => (List.nodup_append.1 nd).2.2 x k x (by simp) rfl
  rw [List.erase_append_right _ this]
  simp

theorem sorted_split {lt : V → V → Bool} {val : Id → V} {u v : List Id} {x : Id} :
    Sorted (fun a b => lt (val a) (val b)) (u ++ x :: v) ↔
      Sorted (fun a b => lt (val a) (val b)) (u ++ v) ∧ (∀ a ∈ u, lt (val x) (val a) = false) ∧ (∀ a ∈ v, lt (val a) (val x) = false) := by
  simp only [Sorted, List.pairwise_append, List.pairwise_cons, List.mem_cons]
  constructor
  · rintro ⟨h1, ⟨h2, h3⟩, h4⟩
    exact ⟨⟨h1, h3, fun a ha b hb => h4 a ha b (Or.inr hb)⟩, fun a ha => h4 a ha x (Or.inl rfl), h2⟩
  · rintro ⟨⟨h1, h3, h4⟩, h5, h6⟩
    refine ⟨h1, ⟨h6, h3⟩, ?_⟩
    rintro a ha b (rfl | hb)
    · exact h5 a ha
    · exact h4 a ha b hb

theorem strict_split {lt : V → V → Bool} {val : Id → V} {u v : List Id} {x : Id} :
    (u ++ x :: v).Pairwise (fun a b => lt (val a) (val b) = true) ↔
      (u ++ v).Pairwise (fun a b => lt (val a) (val b) = true) ∧ (∀ a ∈ u, lt (val a) (val x) = true) ∧ (∀ a ∈ v, lt (val x) (val a) = true) := by
  simp only [List.pairwise_append, List.pairwise_cons, List.mem_cons]
  constructor
  · rintro ⟨h1, ⟨h2, h3⟩, h4⟩
    exact ⟨⟨h1, h3, fun a ha b hb => h4 a ha b (Or.inr hb)⟩, fun a ha => h4 a ha x (Or.inl rfl), h2⟩
  · rintro ⟨⟨h1, h3, h4⟩, h5, h6⟩
    refine ⟨h1, ⟨h6, h3⟩, ?_⟩
    rintro a ha b (rfl | hb)
    · exact h5 a ha
    · exact h4 a ha b hb

theorem good_sorted {u : Bool} {lt : V → V → Bool} (sw : StrictWeak lt) {val : Id → V} {xs : List Id}
    (g : (Spec.ord u lt).Good val xs) : Sorted (fun a b => lt (val a) (val b)) xs := by
  cases u with
  | true => exact List.Pairwise.imp (fun h => sw.asymm h) g
  | false => exact g

theorem pw_congr {R S : Id → Id → Prop} {xs : List Id} (h : ∀ a ∈ xs, ∀ b ∈ xs, R a b → S a b) (p : xs.Pairwise R) : xs.Pairwise S := by
  induction p with
  | nil => exact .nil
  | cons h1 _ ih =>
    refine .cons (fun b hb => h _ (by simp) b (by simp [hb]) (h1 b hb)) (ih ?_)
    intro a ha b hb
    exact h a (by simp [ha]) b (by simp [hb])

theorem good_congr {S : Spec V} {val val' : Id → V} {xs : List Id} (e : ∀ x ∈ xs, val' x = val x) (g : S.Good val xs) : S.Good val' xs := by
  cases S with
  | ord u lt =>
    cases u with
    | true => exact pw_congr (fun a ha b hb k => by rw [e a ha, e b hb]; exact k) g
    | false => exact pw_congr (fun a ha b hb k => by simpa only [e a ha, e b hb] using k) g
  | hash c eq hf =>
    cases c with
    | uniq => exact pw_congr (fun a ha b hb k => by rw [e a ha, e b hb]; exact k) g
    | multi =>
      intro u v w x y z ex exy zv
      have hx : val' x = val x := e x (by simp [ex])
      have hy : val' y = val y := e y (by simp [ex])
      have hz : val' z = val z := e z (by simp [ex, zv])
      have := g u v w x y z ex (by simpa only [hx, hy] using exy) zv
      simpa only [hx, hz] using this
  | seq => trivial
  | rnd => trivial

theorem good_erase {u : Bool} {lt : V → V → Bool} {val : Id → V} {s t : List Id} {x : Id} (g : (Spec.ord u lt).Good val (s ++ x :: t)) :
    (Spec.ord u lt).Good val (s ++ t) := by
  cases u with
  | true => exact (strict_split.1 g).1
  | false => exact (sorted_split.1 g).1

namespace Layer

theorem Holds.nodup {L : Layer V} {val : Id → V} {hd : Id} {xs : List Id} (w : L.Holds val hd xs) : (hd :: xs).Nodup := by
  cases L with
  | ord u lt h => exact Ord.rep_nodup w.1
  | hash c eq hf pol ml h a => exact Hash.Holds.nodup w.2
  | seq h => simpa [Seq.famIds] using w.1
  | rnd s =>
    have := Rnd.Rep.nodup w
    rw [List.nodup_append] at this
    rw [List.nodup_cons]
    exact ⟨fun k => this.2.2 hd k hd (by simp) rfl, this.1⟩

theorem Holds.xs_nodup {L : Layer V} {val : Id → V} {hd : Id} {xs : List Id} (w : L.Holds val hd xs) : xs.Nodup :=
  (List.nodup_cons.1 w.nodup).2

theorem Holds.congr {L : Layer V} {val val' : Id → V} {hd : Id} {xs : List Id} (w : L.Holds val hd xs) (e : ∀ x ∈ xs, val' x = val x) :
    L.Holds val' hd xs := by
  cases L with
  | ord u lt h => exact ⟨w.1, good_congr e w.2⟩
  | hash c eq hf pol ml h a =>
    exact ⟨w.1, Hash.Holds.congr w.2 (fun x hx => by simp [e x hx]) (fun x hx y hy => by simp [eqv, e x hx, e y hy])⟩
  | seq h => exact w
  | rnd s => exact w

theorem Holds.good {L : Layer V} {val : Id → V} {hd : Id} {xs : List Id} (w : L.Holds val hd xs) (ok : L.spec.Ok) : L.spec.Good val xs := by
  cases L with
  | ord u lt h => exact w.2
  | hash c eq hf pol ml h a =>
    cases c with
    | uniq => exact Hash.Holds.unique w.2 (eqv_ok ok val)
    | multi => exact Hash.Holds.grouped w.2 (eqv_ok ok val)
  | seq h => trivial
  | rnd s => trivial

/-! ## Preparation -/

theorem reserve_spec {L : Layer V} {val : Id → V} {hd : Id} {xs pool : List Id} {size : Nat} {e : Env} (ok : L.spec.Ok) (w : L.Holds val hd xs)
    (hs : size = xs.length) (le : L.EnvOk hd size pool e) (sub : ∀ z ∈ xs, z ∈ pool) (av : ∀ z ∈ pool, L.Avoids z) :
    ∃ L', (L.reserve hd val size e = .ok L' ∧ L'.Ready ∨
        L.reserve hd val size e = .threw L' ∧ (e.allocFail = true ∨ e.hashThrow ≠ none)) ∧ L'.spec = L.spec ∧
      (∀ z ∈ pool, L'.Avoids z) ∧ ∃ xs', L'.Holds val hd xs' ∧ L.spec.Same val xs xs' := by
  cases L with
  | ord u lt h => exact ⟨_, Or.inl ⟨rfl, trivial⟩, rfl, av, xs, w, rfl⟩
  | seq h => exact ⟨_, Or.inl ⟨rfl, trivial⟩, rfl, av, xs, w, rfl⟩
  | rnd s =>
    by_cases k : s.size = s.cap ∧ e.allocFail = true
    · exact ⟨.rnd s, Or.inr ⟨by simp only [reserve, if_pos k], Or.inl k.2⟩, rfl, av, xs, w, rfl⟩
    · have r := Rnd.rep_roomForOne e.junk w
      refine ⟨.rnd (Rnd.roomForOne e.junk s), Or.inl ⟨by simp only [reserve, if_neg k], ?_⟩, rfl, av, xs, r.1, rfl⟩
      have := r.1.1
      simp only [Ready]
      omega
  | hash c eq hf pol ml h a =>
    have rf : (Spec.hash c eq hf).Same val xs xs := ⟨.refl _, fun _ _ => rfl⟩
    by_cases k : size + 1 > ml
    · cases ka : e.allocFail with
      | true => exact ⟨.hash c eq hf pol ml h a, Or.inr ⟨by simp only [reserve, if_pos k, ka, if_true], Or.inl rfl⟩, rfl, av, xs, w, rf⟩
      | false =>
        have nm : Hash.NewMem a ⟨e.base, Hash.sizeFor Hash.sizes (pol.grow (size + 1))⟩ hd e.cpy xs := by
          obtain ⟨b0, c0, cn, co, cna, xn, ar⟩ := le
          exact ⟨b0, c0, fun q => cn (by simp only [List.mem_cons] at q ⊢; exact q.imp id (sub _)), co, cna,
            fun z hz => xn z (by simp only [List.mem_cons] at hz ⊢; exact hz.imp id (sub _)), ar⟩
        have ns : 0 < Hash.sizeFor Hash.sizes (pol.grow (size + 1)) := by
          have := (Hash.sizeFor_spec Hash.sizes_sorted Hash.sizes_ne (pol.grow (size + 1))).1
          exact (by decide : ∀ s ∈ Hash.sizes, 0 < s) _ this
        obtain ⟨h', b, e1, e2, e3, e4⟩ := Hash.Holds.rehash (t := e.hashThrow) w.2 (eqv_ok ok val) ns nm
        rw [← hs] at e1
        cases b with
        | true =>
          refine ⟨.hash c eq hf pol ml h' a, Or.inr ⟨?_, Or.inr (fun q => absurd (e2 q) (by simp))⟩, rfl, av, xs, ⟨w.1, e3 rfl⟩, rf⟩
          simp only [reserve, if_pos k, ka, Bool.false_eq_true, if_false]
          rw [e1]
        | false =>
          obtain ⟨xs', w', p, f⟩ := e4 rfl
          refine ⟨.hash c eq hf pol (pol.load (Hash.sizeFor Hash.sizes (pol.grow (size + 1)))) h' ⟨e.base, Hash.sizeFor Hash.sizes (pol.grow (size + 1))⟩,
            Or.inl ⟨?_, trivial⟩, rfl, fun z hz => le.xn z (by simp [hz]), xs', ⟨Hash.sizeFor_mem _, w'⟩, p, fun y _ => f y⟩
          simp only [reserve, if_pos k, ka, Bool.false_eq_true, if_false]
          rw [e1]
    · exact ⟨.hash c eq hf pol ml h a, Or.inl ⟨by simp only [reserve, if_neg k], trivial⟩, rfl, av, xs, w, rf⟩

/-! ## Link points -/

theorem reject_equiv {lt : V → V → Bool} {v w : V} (h : equivOf lt w v = true) : equivOf lt v w = true := by
  rw [StrictWeak.equiv_symm]; exact h

theorem point_spec {L : Layer V} {val : Id → V} {hd x : Id} {xs : List Id} {n : Nat} {e : Env} {hint : Option Id} (ok : L.spec.Ok)
    (w : L.Holds val hd xs) (x0 : x ≠ 0) (hx : x ∉ hd :: xs) (av : L.Avoids x) (hh : ∀ p, hint = some p → p ∈ hd :: xs) (hn : xs.length + 3 ≤ n) :
    (L.point n hd val e hint x = .threw ∧ e.point = true) ∨
    (∃ y ∈ xs, L.point n hd val e hint x = .reject y ∧ L.spec.unique = true ∧ L.spec.equiv (val x) (val y) = true) ∨
    (∃ pt u v, L.point n hd val e hint x = .accept pt ∧ xs = u ++ v ∧ ¬ L.spec.Bans val xs (val x) ∧
      L.spec.Where val hint x u v ∧
      (L.Ready → ∃ L', L.link n hd x pt = some L' ∧ L'.spec = L.spec ∧ L'.Holds val hd (u ++ x :: v) ∧ ∀ z, L.Avoids z → L'.Avoids z)) := by
  cases L with
  | seq h =>
    right; right
    refine ⟨.tail, xs, [], rfl, by simp, fun k => absurd k.1 (by simp [spec, Spec.unique]), rfl, fun _ => ?_⟩
    exact ⟨.seq (h.link x hd), rfl, rfl, Seq.fam_link w (by simpa [Seq.famIds] using hx), fun _ _ => trivial⟩
  | rnd s =>
    right; right
    refine ⟨.tail, xs, [], rfl, by simp, fun k => absurd k.1 (by simp [spec, Spec.unique]), rfl, fun r => ?_⟩
    have := Rnd.Rep.nodup w
    obtain ⟨s', e1, e2, -⟩ := Rnd.rep_pushBack w hx (by have := w.1; simp only [Ready] at r; omega)
    exact ⟨.rnd s', by simp only [link, e1, Option.map_some], rfl, e2, fun _ _ => trivial⟩
  | hash c eq hf pol ml h a =>
    cases ke : e.point with
    | true => left; exact ⟨by simp only [point, ke, if_true], rfl⟩
    | false =>
      right
      rcases Hash.Holds.linkPoint w.2 (eqv_ok ok val) (n := n) (by omega) x with ⟨y, hy, cu, he, k⟩ | ⟨pos, k, k1, u, v, e1, k2, k3⟩
      · left
        refine ⟨y, hy, ?_, by simp [spec, Spec.unique, cu], he⟩
        simp only [point, ke, Bool.false_eq_true, if_false]
        rw [k]
      · right
        refine ⟨.hash pos, u, v, ?_, e1, ?_, k2, fun _ => ?_⟩
        · simp only [point, ke, Bool.false_eq_true, if_false]
          rw [k]
        · rintro ⟨hu, y, hy, he⟩
          have := k1 (by simpa [spec, Spec.unique] using hu) y hy
          simp only [spec, Spec.equiv] at he
          simp [eqv, he] at this
        · exact ⟨_, rfl, rfl, ⟨w.1, k3 ⟨x0, hx, av⟩⟩, fun _ q => q⟩
  | ord u lt h =>
    cases ke : e.point with
    | true => left; exact ⟨by simp only [point, ke, if_true], rfl⟩
    | false =>
      right
      have sw : StrictWeak lt := ok
      have hsrt := good_sorted sw w.2
      have hnd := Ord.rep_nodup w.1
      have split : ∀ p, hint = some p → ∃ b a, xs = b ++ a ∧ p = hdOr hd a ∧ Spec.Between p b a := by
        intro p hp
        rcases List.mem_cons.1 (hh p hp) with rfl | hm
        · exact ⟨xs, [], by simp, rfl, Or.inr ⟨rfl, (List.nodup_cons.1 hnd).1⟩⟩
        · obtain ⟨b, a, rfl⟩ := List.append_of_mem hm
          exact ⟨b, p :: a, rfl, rfl, Or.inl rfl⟩
      cases u with
      | true =>
        have up : Ord.UniquePoint val lt h hd xs (val x) (Ord.pointU val lt n h hd (val x) hint) := by
          cases hint with
          | none => exact Ord.linkPointU_spec sw w.1 hsrt hn _
          | some p =>
            obtain ⟨b, a, rfl, rfl, -⟩ := split p rfl
            exact Ord.hintedPointU_spec sw w.1 hsrt hn _
        rcases up with ⟨side, pos, u, v, e1, rfl, e3, e4, e5⟩ | ⟨p, hp, e1, e2⟩
        · right
          have near : ∀ p, hint = some p → ∃ b a, u ++ v = b ++ a ∧ Spec.Between p b a ∧ (u = b ∨
              (b.length < u.length ∧ ∀ c ∈ u, lt (val c) (val x) = true) ∨ (u.length < b.length ∧ ∀ c ∈ v, lt (val x) (val c) = true)) := by
            intro p hp
            obtain ⟨b, a, q1, -, q3⟩ := split p hp
            refine ⟨b, a, q1, q3, ?_⟩
            rcases Nat.lt_trichotomy b.length u.length with q | q | q
            · exact Or.inr (Or.inl ⟨q, e4⟩)
            · exact Or.inl (List.append_inj q1 q.symm).1
            · exact Or.inr (Or.inr ⟨q, e5⟩)
          refine ⟨.ord side pos, u, v, ?_, rfl, ?_, ⟨fun a ha => sw.asymm (e4 a ha), fun a ha => sw.asymm (e5 a ha), fun _ => e5, near⟩, fun _ => ?_⟩
          · simp only [point, ke, Bool.false_eq_true, if_false, if_true]
            rw [e1]
          · rintro ⟨-, y, hy, he⟩
            simp only [spec, Spec.equiv, StrictWeak.equiv_iff] at he
            rcases List.mem_append.1 hy with q | q
            · rw [e4 y q] at he; exact absurd he.2 (by simp)
            · rw [e5 y q] at he; exact absurd he.1 (by simp)
          · obtain ⟨h', l1, l2, -⟩ := Ord.link_at (N := n) e3 hx x0 (by omega)
            exact ⟨.ord true lt h', by simp only [link, l1, Option.map_some], rfl, ⟨l2, strict_split.2 ⟨w.2, e4, e5⟩⟩, fun _ _ => trivial⟩
        · left
          refine ⟨p, hp, ?_, rfl, reject_equiv e2⟩
          simp only [point, ke, Bool.false_eq_true, if_false, if_true]
          rw [e1]
      | false =>
        right
        have up : ∃ side pos u v, Ord.pointN val lt n h hd (val x) hint = some (.accept side pos) ∧ xs = u ++ v ∧ Ord.PointAt h hd side pos u v ∧
            Ord.Fits val lt (val x) u v ∧ (hint = none → ∀ a ∈ v, lt (val x) (val a) = true) ∧
            (∀ p, hint = some p → ∃ b a, u ++ v = b ++ a ∧ Spec.Between p b a ∧ (u = b ∨
              (b.length < u.length ∧ ∀ c ∈ u, lt (val c) (val x) = true) ∨ (u.length < b.length ∧ ∀ c ∈ v, lt (val x) (val c) = true))) := by
          cases hint with
          | none =>
            obtain ⟨side, pos, u, v, e1, e2, e3, e4, e5⟩ := Ord.linkPointN_spec sw w.1 hsrt hn (val x)
            exact ⟨side, pos, u, v, e1, e2, e3, ⟨e4, fun a ha => sw.asymm (e5 a ha)⟩, fun _ => e5, fun p q => nomatch q⟩
          | some p =>
            obtain ⟨b, a, rfl, rfl, q3⟩ := split p rfl
            obtain ⟨side, pos, u, v, e1, e2, e3, e4, e5⟩ := Ord.hintedPointN_spec sw w.1 hsrt hn (val x)
            refine ⟨side, pos, u, v, e1, e2, e3, e4, (fun q => nomatch q), fun p hp => ⟨b, a, e2.symm, (Option.some.inj hp) ▸ q3, ?_⟩⟩
            rcases e5 with e5 | e5 | e5
            · exact Or.inl e5.1
            · exact Or.inr (Or.inl e5)
            · exact Or.inr (Or.inr e5)
        obtain ⟨side, pos, u, v, e1, rfl, e3, e4, e5, e6⟩ := up
        refine ⟨.ord side pos, u, v, ?_, rfl, fun k => absurd k.1 (by simp [spec, Spec.unique]), ⟨e4.1, e4.2, e5, e6⟩, fun _ => ?_⟩
        · simp only [point, ke, Bool.false_eq_true, if_false]
          rw [e1]
        · obtain ⟨h', l1, l2, -⟩ := Ord.link_at (N := n) e3 hx x0 (by omega)
          exact ⟨.ord false lt h', by simp only [link, l1, Option.map_some], rfl, ⟨l2, sorted_split.2 ⟨w.2, e4.1, e4.2⟩⟩, fun _ _ => trivial⟩

/-! ## Removal -/

theorem unlink_spec {L : Layer V} {val val' : Id → V} {hd x : Id} {xs : List Id} {n : Nat} (w : L.Holds val hd xs) (hx : x ∈ xs)
    (hv : ∀ y, y ≠ x → val' y = val y) (hn : xs.length + 3 ≤ n) :
    ∃ L', L.unlink n hd x = some L' ∧ L'.spec = L.spec ∧ L'.Holds val' hd (xs.erase x) ∧ (∀ z, L.Avoids z → L'.Avoids z) ∧ (L.Ready → L'.Ready) := by
  have nd := w.xs_nodup
  obtain ⟨u, v, rfl⟩ := List.append_of_mem hx
  have hnx : ∀ y ∈ u ++ v, val' y = val y := by
    intro y hy
    apply hv
    rintro rfl
    have := List.nodup_middle.1 nd
    exact (List.nodup_cons.1 this).1 hy
  cases L with
  | ord b lt h =>
    obtain ⟨h', e1, e2, -⟩ := Ord.rep_extract w.1 hn
    rw [erase_split nd]
    exact ⟨.ord b lt h', by simp only [unlink, e1, Option.map_some], rfl, ⟨e2, good_congr hnx (good_erase w.2)⟩, fun _ _ => trivial, fun _ => trivial⟩
  | hash c eq hf pol ml h a =>
    refine ⟨_, rfl, rfl, ?_, fun _ q => q, fun _ => trivial⟩
    exact ⟨w.1, Hash.Holds.unlink' w.2 ⟨fun y z hy hz => by simp [eqv, hv y hy, hv z hz], fun y hy => by simp [hv y hy]⟩ hx⟩
  | seq h =>
    rw [erase_split nd]
    exact ⟨_, rfl, rfl, (Seq.fam_unlink w).1, fun _ _ => trivial, fun _ => trivial⟩
  | rnd s =>
    rw [erase_split nd]
    have r := Rnd.rep_erase w
    refine ⟨_, rfl, rfl, r.1, fun _ _ => trivial, fun q => ?_⟩
    have h1 := r.1.1
    have h2 := r.2
    have h3 := w.1
    simp only [Ready] at q ⊢
    rw [h1, h2]
    simp at h3 ⊢
    omega

/-! ## Modification -/

theorem inPlace_spec {L : Layer V} {val val' : Id → V} {hd x : Id} {xs : List Id} {n : Nat} {e : Env} (ok : L.spec.Ok) (w : L.Holds val hd xs) (hx : x ∈ xs)
    (hv : ∀ y, y ≠ x → val' y = val y) (hn : xs.length + 3 ≤ n) :
    (L.inPlace n hd val' e x = .threw false ∧ e.place = true ∧ L.keyed = true) ∨
    ∃ b, L.inPlace n hd val' e x = .ok b ∧ (b = true ↔ L.Holds val' hd xs) ∧ (L.keyed = false → b = true) := by
  cases L with
  | seq h => exact Or.inr ⟨true, rfl, ⟨fun _ => w, fun _ => rfl⟩, fun _ => rfl⟩
  | rnd s => exact Or.inr ⟨true, rfl, ⟨fun _ => w, fun _ => rfl⟩, fun _ => rfl⟩
  | hash c eq hf pol ml h a =>
    cases ke : e.place with
    | true => left; exact ⟨by simp only [inPlace, ke, if_true], rfl, rfl⟩
    | false =>
      right
      obtain ⟨b, k1, k2⟩ := Hash.Holds.inPlace (n := n) w.2 (eqv_ok ok val')
        (x := x) ⟨fun y z hy hz => by simp [eqv, hv y hy, hv z hz], fun y hy => by simp [hv y hy]⟩ hx (by omega)
      exact ⟨b, by simpa only [inPlace, ke, Bool.false_eq_true, if_false] using k1, k2.trans ⟨fun q => ⟨w.1, q⟩, fun q => q.2⟩, fun q => nomatch q⟩
  | ord b lt h =>
    cases ke : e.place with
    | true => left; exact ⟨by simp only [inPlace, ke, if_true], rfl, rfl⟩
    | false =>
      right
      have sw : StrictWeak lt := ok
      have nd := w.xs_nodup
      obtain ⟨u, v, rfl⟩ := List.append_of_mem hx
      have hnx : ∀ y ∈ u ++ v, val' y = val y := by
        intro y hy
        apply hv
        rintro rfl
        have := List.nodup_middle.1 nd
        exact (List.nodup_cons.1 this).1 hy
      have g := good_congr hnx (good_erase w.2)
      have hs := good_sorted sw g
      cases b with
      | true =>
        obtain ⟨r, k1, k2⟩ := Ord.inPlaceU_spec sw w.1 hs hn (val' x)
        refine ⟨r, ?_, ?_, fun q => nomatch q⟩
        · simp only [inPlace, ke, Bool.false_eq_true, if_false, if_true]
          rw [k1]
        · rw [k2]
          exact ⟨fun q => ⟨w.1, strict_split.2 ⟨g, q⟩⟩, fun q => (strict_split.1 q.2).2⟩
      | false =>
        obtain ⟨r, k1, k2⟩ := Ord.inPlaceN_spec sw w.1 hs hn (val' x)
        refine ⟨r, ?_, ?_, fun q => nomatch q⟩
        · simp only [inPlace, ke, Bool.false_eq_true, if_false]
          rw [k1]
        · rw [k2]
          exact ⟨fun q => ⟨w.1, sorted_split.2 ⟨g, q⟩⟩, fun q => (sorted_split.1 q.2).2⟩

theorem takeOut_spec {L : Layer V} {val val' : Id → V} {hd x : Id} {xs : List Id} {n : Nat} (kd : L.keyed = true) (w : L.Holds val hd xs) (hx : x ∈ xs)
    (x0 : x ≠ 0) (hv : ∀ y, y ≠ x → val' y = val y) (hn : xs.length + 3 ≤ n) :
    ∃ L' sv, L.takeOut n hd x = some (L', sv) ∧ L'.spec = L.spec ∧ L'.Holds val' hd (xs.erase x) ∧ (∀ z, L.Avoids z → L'.Avoids z) ∧ L'.Ready ∧
      ∃ L'', L'.putBack n hd x sv = some L'' ∧ L''.spec = L.spec ∧ L''.Holds val hd xs ∧ (∀ z, L.Avoids z → L''.Avoids z) := by
  cases L with
  | seq h => exact nomatch kd
  | rnd s => exact nomatch kd
  | hash c eq hf pol ml h a =>
    refine ⟨.hash c eq hf pol ml (Hash.unlinkA c h x).h a, .log (Hash.unlinkA c h x).log, rfl, rfl, ?_, fun _ q => q, trivial,
      .hash c eq hf pol ml (Hash.unlinkA c h x).undo a, rfl, rfl, ?_, fun _ q => q⟩
    · rw [Hash.unlinkA_h]
      exact ⟨w.1, Hash.Holds.unlink' w.2 ⟨fun y z hy hz => by simp [eqv, hv y hy, hv z hz], fun y hy => by simp [hv y hy]⟩ hx⟩
    · rw [Hash.unlinkA_undo]
      exact w
  | ord b lt h =>
    have nd := w.nodup
    obtain ⟨u, v, rfl⟩ := List.append_of_mem hx
    have nd2 := (List.nodup_cons.1 nd).2
    have nd3 := List.nodup_cons.1 (List.nodup_middle.1 nd2)
    have hnx : ∀ y ∈ u ++ v, val' y = val y := by
      intro y hy
      apply hv
      rintro rfl
      exact nd3.1 hy
    have hxh : x ≠ hd := by
      rintro rfl
      exact (List.nodup_cons.1 nd).1 (by simp)
    obtain ⟨h', e1, e2, -⟩ := Ord.rep_extract w.1 hn
    have e3 := Ord.increment_spec w.1 hn
    obtain ⟨h'', e4, e5, -⟩ := Ord.restore_spec (N := n) e2 (x := x) (by simp only [List.mem_cons, not_or]; exact ⟨hxh, nd3.1⟩) x0
      (by simp at hn ⊢; omega)
    rw [erase_split nd2]
    refine ⟨.ord b lt h', .next (hdOr hd v), ?_, rfl, ⟨e2, good_congr hnx (good_erase w.2)⟩, fun _ _ => trivial, trivial, .ord b lt h'', ?_, rfl,
      ⟨e5, w.2⟩, fun _ _ => trivial⟩
    · simp only [takeOut, e3, e1, Option.map_some]
    · simp only [putBack, e4, Option.map_some]

theorem clear_spec {L : Layer V} {val val' : Id → V} {hd : Id} {xs : List Id} (h0 : hd ≠ 0) (w : L.Holds val hd xs) :
    (L.clear hd).spec = L.spec ∧ (L.clear hd).Holds val' hd [] ∧ ∀ z, L.Avoids z → (L.clear hd).Avoids z := by
  cases L with
  | ord b lt h =>
    refine ⟨rfl, ⟨Ord.emptyInit_rep h h0, ?_⟩, fun _ _ => trivial⟩
    cases b
    · exact List.Pairwise.nil
    · exact List.Pairwise.nil
  | hash c eq hf pol ml h a => exact ⟨rfl, ⟨w.1, Hash.Holds.clear w.2 _ _⟩, fun _ q => q⟩
  | seq h =>
    refine ⟨rfl, ?_, fun _ _ => trivial⟩
    exact ⟨by simp [Seq.famIds], fun p hp => by
      simp only [List.mem_singleton] at hp
      subst hp
      simp [Seq.Seg, Seq.Heap.emptyInit, Seq.Heap.setNext, Seq.Heap.setPrior]⟩
  | rnd s => exact ⟨rfl, (Rnd.rep_clear w).1, fun _ _ => trivial⟩

/-! ## Traversal -/

theorem next_spec {L : Layer V} {val : Id → V} {hd x : Id} {u v : List Id} {n : Nat} (w : L.Holds val hd (u ++ x :: v)) (hn : (u ++ x :: v).length + 3 ≤ n) :
    L.next n x = some (hdOr hd v) := by
  cases L with
  | ord b lt h => exact Ord.increment_spec w.1 hn
  | hash c eq hf pol ml h a => exact congrArg some (Hash.Holds.after w.2 rfl)
  | seq h => exact congrArg some (Seq.next_in w)
  | rnd s =>
    refine congrArg some ?_
    have h1 := (Rnd.Rep.up_split w).1
    unfold Rnd.increment
    rw [h1]
    cases v with
    | nil =>
      have := Rnd.Rep.arr_end w
      simpa [hdOr] using this
    | cons y v =>
      have := Rnd.Rep.arr w (i := u.length + 1) (by simp)
      rw [this]
      simp [hdOr]

theorem first_spec {L : Layer V} {val : Id → V} {hd : Id} {xs : List Id} (w : L.Holds val hd xs) : L.first hd = hdOr hd xs := by
  cases L with
  | ord b lt h => exact Ord.rep_first w.1
  | hash c eq hf pol ml h a => exact Hash.Holds.begin w.2
  | seq h => exact Seq.next_hd w
  | rnd s =>
    show s.arr 0 = _
    cases xs with
    | nil =>
      have := Rnd.Rep.arr_end w
      simpa [hdOr] using this
    | cons y v =>
      have := Rnd.Rep.arr w (i := 0) (by simp)
      rw [this]
      simp [hdOr]

theorem walkFrom_spec {L : Layer V} {val : Id → V} {hd : Id} {n : Nat} : ∀ {v u : List Id} {m : Nat}, L.Holds val hd (u ++ v) → (u ++ v).length + 3 ≤ n →
    v.length ≤ m → L.walkFrom n hd m (hdOr hd v) = some v
  | [], u, m, w, hn, hm => by
    unfold walkFrom
    cases m <;> simp [hdOr]
  | x :: v, u, m, w, hn, hm => by
    obtain ⟨m, rfl⟩ : ∃ k, m = k + 1 := ⟨m - 1, by simp at hm; omega⟩
    have nd := w.nodup
    have hne : x ≠ hd := by
      rintro rfl
      exact (List.nodup_cons.1 nd).1 (by simp)
    have ih := walkFrom_spec (L := L) (val := val) (n := n) (u := u ++ [x]) (v := v) (m := m) (by simpa using w) (by simpa using hn) (by simpa using hm)
    show walkFrom n hd L (m + 1) x = _
    simp only [walkFrom, if_neg hne, next_spec w hn, ih, Option.map_some]

theorem walk_spec {L : Layer V} {val : Id → V} {hd : Id} {xs : List Id} {n : Nat} (w : L.Holds val hd xs) (hn : xs.length + 3 ≤ n) :
    L.walk n hd = some xs := by
  unfold walk
  rw [first_spec w]
  exact walkFrom_spec (u := []) w hn (by omega)

end Layer
end MI.Cont
