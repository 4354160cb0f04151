import Verif.Cont.IdealAsk
import Verif.Cont.IdealStep
import Verif.Cont.IdealStep2
import Verif.Cont.CompareLemmas
import Verif.Safe.ChecksLemmas
import Verif.Props.Lookups
import Mathlib.Data.List.Find
/-!
Lemmas: the answers of the model are those of the ideal.
-/
set_option linter.unusedVariables false
namespace MI.Ideal
open MI MI.Cont
variable {V : Type} {w : World V} {a : State V} {i j k l : Nat} {S : Spec V} {xs ys : List Id} {c : Container V} {L : Layer V}

/-- An index of the program and of the ideal. -/
structure Meets (w : World V) (a : State V) (i k : Nat) (S : Spec V) (xs : List Id) (c : Container V) (L : Layer V) (ys : List Id) : Prop where
  hi : w.cs[i]? = some c
  hL : c.ls[k]? = some L
  hS : c.asked[k]? = some S
  hs : c.seqs[k]? = some ys
  sh : Shows xs ys S
  spec : L.spec = S
  holds : L.Holds w.m.val c.hd ys
  bud : ys.length + 3 ≤ c.budget
  cnt : c.count = ys.length
  hd : c.hd ∉ ys
  nd : ys.Nodup
  val : ∀ z ∈ ys, a.val z = w.m.val z
  lay : w.layer i k = some (c, L)
  lst : a.list i k = xs

theorem meets (f : Follows w a) (h : a.index i k = some (S, xs)) : ∃ c L ys, Meets w a i k S xs c L ys := by
  obtain ⟨rc, A⟩ := f.reach
  have I := rc.inv
  have h0 := h
  unfold State.index at h
  cases hb : a.boxes[i]? with
  | none => rw [hb] at h; exact nomatch h
  | some b =>
    rw [hb] at h
    have h : b[k]? = some (S, xs) := h
    obtain ⟨c, hi⟩ := get_of_len (l' := w.cs) A.len.symm hb
    have Lk := A.boxes i c b hi hb
    obtain ⟨hS, ys, hs, sh⟩ := Lk.index h
    have kn := Lk.known I hi h hs
    obtain ⟨L, hL, ho, hbud, sp, -⟩ := I.seq' hi hS hs
    refine ⟨c, L, ys, hi, hL, hS, hs, sh, sp, ho, by omega, ?_, kn.hd, kn.nd, fun z hz => A.val z (kn.cons z hz), ?_, ?_⟩
    · rw [(I.facts hi).2.1.count]; exact kn.perm'.length_eq.symm
    · unfold World.layer; rw [hi]; simp only; rw [hL]; rfl
    · unfold State.list; rw [h0]

theorem Meets.same (m : Meets w a i k S xs c L ys) (fx : Fixed S) : ys = xs := by
  have := m.sh
  cases S with
  | hash _ _ _ => exact fx.elim
  | ord _ _ => exact this
  | seq => exact this
  | rnd => exact this

theorem Meets.perm (m : Meets w a i k S xs c L ys) : ys.Perm xs := by
  have := m.sh
  cases S with
  | hash _ _ _ => exact this
  | ord _ _ => exact this ▸ List.Perm.refl _
  | seq => exact this ▸ List.Perm.refl _
  | rnd => exact this ▸ List.Perm.refl _

theorem spot_getD {hd : Id} {o : Option Id} (h : ∀ x, o = some x → x ≠ hd) : spot hd (o.getD hd) = o := by
  unfold spot
  cases o with
  | none => simp
  | some x => simp [h x rfl]

theorem spot_head {hd : Id} (h : hd ∉ xs) : spot hd (xs.headD hd) = xs.head? := by
  have : xs.headD hd = xs.head?.getD hd := by cases xs <;> rfl
  rw [this]
  exact spot_getD fun x e q => h (q ▸ List.mem_of_head? e)

theorem spot_find {hd : Id} (h : hd ∉ xs) (p : Id → Bool) : spot hd ((xs.find? p).getD hd) = xs.find? p :=
  spot_getD fun x e q => h (q ▸ List.mem_of_find?_eq_some e)

theorem spot_get {hd : Id} (h : hd ∉ xs) (n : Nat) : spot hd (xs.getD n hd) = xs[n]? := by
  rw [List.getD_eq_getElem?_getD]
  exact spot_getD fun x e q => h (q ▸ List.mem_of_getElem? e)

theorem find_head {p : Id → Bool} {u v : List Id} (h1 : ∀ z ∈ u, p z = false) (h2 : ∀ z ∈ v.head?, p z = true) : (u ++ v).find? p = v.head? := by
  rw [List.find?_append, List.find?_eq_none.2 (fun z hz => by simp [h1 z hz])]
  cases v with
  | nil => rfl
  | cons y v => simp [h2 y rfl]

theorem getD_offset {hd : Id} (h : hd ∉ xs) {p : Option Id} (hp : ∀ x, p = some x → x ∈ xs) : ∃ u v, xs = u ++ v ∧ p.getD hd = v.headD hd ∧ offset xs p = u.length := by
  cases p with
  | none => exact ⟨xs, [], by simp, rfl, rfl⟩
  | some x =>
    obtain ⟨u, v, e⟩ := List.eq_append_cons_of_mem (hp x rfl)
    refine ⟨u, x :: v, e.1, rfl, ?_⟩
    show xs.idxOf x = _
    rw [e.1, List.idxOf_append_of_notMem e.2, List.idxOf_cons_self]; rfl

theorem walkTo_spec {L : Layer V} {val : Id → V} {hd : Id} {n : Nat} : ∀ {m u s : List Id} {b : Nat}, L.Holds val hd (u ++ m ++ s) → (u ++ m ++ s).length + 3 ≤ n → m.length ≤ b →
    L.walkTo n (s.headD hd) b ((m ++ s).headD hd) = some m
  | [], u, s, b, _, _, _ => by cases b <;> simp [Layer.walkTo]
  | x :: m, u, s, 0, _, _, hb => by simp at hb
  | x :: m, u, s, b + 1, ho, hn, hb => by
    have nd := ho.nodup
    have ne : x ≠ s.headD hd := by
      cases s with
      | nil => intro e; simp at nd; simp at e; simp [e] at nd
      | cons y s => intro e; simp at nd; simp at e; simp [e, List.nodup_append] at nd
    have h1 := Layer.next_spec (L := L) (val := val) (hd := hd) (x := x) (u := u) (v := m ++ s) (n := n) (by simpa using ho) (by simpa using hn)
    have h2 := walkTo_spec (L := L) (val := val) (hd := hd) (n := n) (m := m) (u := u ++ [x]) (s := s) (b := b) (by simpa using ho) (by simpa using hn) (by simpa using hb)
    rw [hdOr_eq] at h1
    show L.walkTo n (s.headD hd) (b + 1) x = _
    unfold Layer.walkTo
    rw [if_neg ne, h1]
    simp only [h2]
    rfl

theorem sameUpTo_perm {eq : V → V → Bool} {l l' m m' : List V} (h1 : l.Perm l') (h2 : m.Perm m') (s : SameUpTo eq l m) : SameUpTo eq l' m' := by
  obtain ⟨t, t1, t2⟩ := s
  obtain ⟨t', a1, a2⟩ := List.perm_comp_forall₂ h1.symm t2
  exact ⟨t', a2.trans (t1.trans h2), a1⟩

end MI.Ideal
