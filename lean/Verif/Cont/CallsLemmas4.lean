import Verif.Cont.CallsLemmas3
import Verif.Cont.Reach
/-!
The same for programs.
-/
set_option linter.unusedVariables false
namespace MI.Cont
open MI Runs Container
variable {V : Type} {fate : Nat → UserCall V → Option Bool} {ans : UserCall V → Bool} {w : World V} {i : Nat} {c : Container V} {m : Mem V} {pool : List Id}

namespace Layer

theorem rehash_calm (hd : Id) (val : Id → V) (size n : Nat) (e : Env) (t : Option Nat) (L : Layer V) :
    L.rehash hd val size n { e with hashThrow := t } = L.rehash hd val size n { e.calm with hashThrow := t } := by
  cases L <;> rfl

theorem rehash_threw {val : Id → V} {hd : Id} {xs pool : List Id} {size n : Nat} {e : Env} {c : Hash.Cat} {eq : V → V → Bool} {hf : V → Nat} {pol : Pol}
    {ml : Nat} {h : Hash.Heap} {a : Hash.Arr} (ok : EqHash eq hf) (w : (Layer.hash c eq hf pol ml h a).Holds val hd xs) (hs : size = xs.length)
    (le : (Layer.hash c eq hf pol ml h a).RehashOk hd size n pool e) (sub : ∀ z ∈ xs, z ∈ pool) (k : ¬ (size ≤ ml ∧ n ≤ a.size)) (ka : e.allocFail = false) {i : Nat}
    (hi : i < Hash.rehashCalls c (fun x => hf (val x)) size none h ⟨e.base, Hash.sizeFor Hash.sizes (max (pol.grow size) n)⟩ hd e.cpy) :
    ∃ L', (Layer.hash c eq hf pol ml h a).rehash hd val size n { e with hashThrow := some i } = .threw L' := by
  have nm : Hash.NewMem a ⟨e.base, Hash.sizeFor Hash.sizes (max (pol.grow size) n)⟩ hd e.cpy xs := by
    obtain ⟨b0, c0, cn, co, cna, xn, ar⟩ := le
    exact ⟨b0, c0, fun q => cn (by simp only [List.mem_cons] at q ⊢; exact q.imp id (sub _)), co, cna,
      fun z hz => xn z (by simp only [List.mem_cons] at hz ⊢; exact hz.imp id (sub _)), ar⟩
  have ns : 0 < Hash.sizeFor Hash.sizes (max (pol.grow size) n) := Hash.sizeFor_pos _
  obtain ⟨-, s0, T, r, gd, rfl⟩ := w
  obtain ⟨h1, b1, -, c1, -, -, -, -, c3⟩ := Hash.rehash_table (t := none) r gd (eqv_ok ok val) s0 ns nm
  obtain ⟨h2, b2, d1, -, -, -, d2, -⟩ := Hash.rehash_table (t := some i) r gd (eqv_ok ok val) s0 ns nm
  rw [← hs] at c3 d1
  rw [c3 (c1 rfl)] at hi
  obtain rfl : b2 = true := d2.2 ⟨i, rfl, hi⟩
  refine ⟨.hash c eq hf pol ml h2 a, ?_⟩
  simp only [rehash, if_neg k, ka, Bool.false_eq_true, if_false]
  rw [d1]

theorem rehash_sim {L : Layer V} {val : Id → V} {hd : Id} {xs pool : List Id} {size n k : Nat} {e : Env} (ok : L.spec.Ok) (w : L.Holds val hd xs)
    (hs : size = xs.length) (le : L.RehashOk hd size n pool e) (sub : ∀ z ∈ xs, z ∈ pool) :
    Sim fate (L.rehashR k hd val size n e) (· = L.rehash hd val size n e.calm)
      (fun r => ∃ e', e.Like e' ∧ r = L.rehash hd val size n e' ∧ NotOk r) := by
  cases L with
  | ord u lt h => exact Sim.done rfl
  | seq h => exact Sim.done rfl
  | rnd s => exact Sim.done rfl
  | hash c eq hf pol ml h a =>
    simp only [rehashR, Runs.pure_def, Runs.bind_def]
    by_cases q : ¬ (size ≤ ml ∧ n ≤ a.size) ∧ e.allocFail = false
    · rw [if_pos q]
      refine Sim.bind (sim_hashCalls k _ 0) ?_ ?_
      · rintro _ rfl
        exact Sim.done (rehash_calm ..)
      · rintro _ ⟨i, hi, rfl⟩
        obtain ⟨L', hL⟩ := rehash_threw ok w hs le sub q.1 q.2 hi
        rw [Nat.zero_add]
        exact Sim.done ⟨{ e with hashThrow := some i }, ⟨rfl, rfl, rfl, rfl⟩, rfl, by rw [hL]; exact notOk_threw⟩
    · rw [if_neg q]
      refine Sim.done ?_
      by_cases q1 : ¬ (size ≤ ml ∧ n ≤ a.size)
      · have q2 : e.allocFail = true := by
          cases q2 : e.allocFail
          · exact absurd ⟨q1, q2⟩ q
          · rfl
        simp only [rehash, if_neg q1, Env.calm, q2, if_true]
      · rw [not_not] at q1
        simp only [rehash, if_pos q1]

end Layer

theorem answersAll_of (hi : w.cs[i]? = some c) : AnswersAll (w.answers i) 0 (specs c.ls) := by
  have go : ∀ (Ss : List (Spec V)) (k : Nat), (∀ j, (Ss[j]?) = (c.ls[k + j]?).map Layer.spec) → AnswersAll (w.answers i) k Ss := by
    intro Ss
    induction Ss with
    | nil => exact fun _ _ => trivial
    | cons S Ss ih =>
      intro k h
      refine ⟨?_, ih (k + 1) fun j => ?_⟩
      · have h0 := h 0
        simp only [List.getElem?_cons_zero, Nat.add_zero] at h0
        cases S with
        | ord u lt => intro a b; simp only [World.answers, hi, Option.bind_some, ← h0]
        | hash c eq hf => intro a b; simp only [World.answers, hi, Option.bind_some, ← h0]
        | seq => trivial
        | rnd => trivial
      · have := h (j + 1)
        rw [List.getElem?_cons_succ] at this
        rw [this, Nat.add_assoc, Nat.add_comm 1 j]
  exact go _ 0 fun j => by rw [Nat.zero_add]; exact List.getElem?_map ..

theorem put_notOk {r : Out (Res V)} (h : NotOk r) : NotOk (w.put i r) := by
  cases r with
  | ok a => exact absurd rfl (h a)
  | threw a => exact notOk_threw
  | ub => exact notOk_ub
  | hang => exact notOk_hang

/-- An operation with calls, and the operation with environments. -/
def StepAgrees (fate : Nat → UserCall V → Option Bool) (w : World V) (op : Op V) : Prop :=
  Sim fate (w.stepR op) (· = w.step (op.within (calmE op.env) (calmE op.env')))
    (fun r => ∃ e e', (∀ k, (op.env k).Like (e k)) ∧ (∀ k, (op.env' k).Like (e' k)) ∧ r = w.step (op.within e e') ∧ NotOk r)

theorem Agrees.step {α : Type} {op : Op V} {m : Runs (UserCall V) (Out α)} {f : (Nat → Env) → Out α} {g : Out α → Out (World V × Ret)} (h : Agrees fate op.env m f)
    (hR : w.stepR op = m.bind (fun r => Runs.done (g r))) (hs : ∀ e, w.step (op.within e e) = g (f e)) (hw : ∀ e e', op.within e e' = op.within e e)
    (hg : ∀ r, NotOk r → NotOk (g r)) (he : op.env' = op.env) : StepAgrees fate w op := by
  unfold StepAgrees
  rw [hR, he]
  refine Sim.bind h ?_ ?_
  · rintro _ rfl
    exact Sim.done (hs _).symm
  · rintro r ⟨e', l1, l2, l3⟩
    exact Sim.done ⟨e', e', l1, l1, by rw [hs, l2], hg r l3⟩

theorem stepR_agrees (r : Reach w) {op : Op V} (l : w.Legal op) (hon : Honest (w.answers op.target) fate) : StepAgrees fate w op := by
  have I := r.inv
  cases op with
  | insert i v x f hint e =>
    obtain ⟨c, hi, hf, hh, env⟩ := l
    obtain ⟨hc, s, cl, sa, sc, z0, h0⟩ := I.facts hi
    have hx := Fresh.not_mem I hf hc
    refine Agrees.step (insertR_agrees (m := w.m) (v := v) (f := f) (hint := hint) hon (answersAll_of hi) s (fun h => hx (List.mem_cons_of_mem _ h))
      (fun z hz => List.mem_cons_of_mem _ (sa z hz)) env (Fresh.clear I hf hc)) (g := w.put i) ?_ ?_ (fun _ _ => rfl) (fun _ => put_notOk) rfl
    · simp only [World.stepR, hi, Runs.bind_def, Runs.pure_def, Op.env]
    · intro e'; simp only [Op.within, World.step, hi]
  | emplace i v x f hint e =>
    obtain ⟨c, hi, hf, hh, env⟩ := l
    obtain ⟨hc, s, cl, sa, sc, z0, h0⟩ := I.facts hi
    have hx := Fresh.not_mem I hf hc
    refine Agrees.step (emplaceR_agrees (m := w.m) (v := v) (f := f) (hint := hint) hon (answersAll_of hi) s (fun h => hx (List.mem_cons_of_mem _ h))
      (fun z hz => List.mem_cons_of_mem _ (sa z hz)) env (Fresh.clear I hf hc)) (g := w.put i) ?_ ?_ (fun _ _ => rfl) (fun _ => put_notOk) rfl
    · simp only [World.stepR, hi, Runs.bind_def, Runs.pure_def, Op.env]
    · intro e'; simp only [Op.within, World.step, hi]
  | insertNh i h hint e =>
    obtain ⟨c, hi, hh, ho, env⟩ := l
    obtain ⟨hc, s, cl, sa, sc, z0, h0⟩ := I.facts hi
    have hn : w.hs[h]? = some w.hs[h] := List.getElem?_eq_getElem hh
    refine Agrees.step (insertNhR_agrees (m := w.m) (hint := hint) (nh := w.hs[h]) hon (answersAll_of hi) s sa env cl) (g := w.putNh i h) ?_ ?_ (fun _ _ => rfl) ?_ rfl
    · simp only [World.stepR, hi, hn, Runs.bind_def, Runs.pure_def, Op.env]
    · intro e'
      simp only [Op.within, World.step, hi, hn]
      cases c.insertNh w.m w.hs[h] hint e' <;> rfl
    · intro r hr
      cases r with
      | ok a => exact absurd rfl (hr a)
      | threw a => exact notOk_threw
      | ub => exact notOk_ub
      | hang => exact notOk_hang
  | transfer i j x e =>
    obtain ⟨ne, c, d, hi, hj, hxd, env⟩ := l
    obtain ⟨hc, s, cl, sa, sc, z0, h0⟩ := I.facts hi
    refine Agrees.step (transferR_agrees (m := w.m) (d := d) (x := x) hon (answersAll_of hi) s sa env cl) (g := w.putBoth i j) ?_ ?_ (fun _ _ => rfl) ?_ rfl
    · simp only [World.stepR, hi, hj, Runs.bind_def, Runs.pure_def, Op.env]
    · intro e'
      simp only [Op.within, World.step, hi, hj]
      cases c.transfer w.m d x e' <;> rfl
    · intro r hr
      cases r with
      | ok a => exact absurd rfl (hr a)
      | threw a => exact notOk_threw
      | ub => exact notOk_ub
      | hang => exact notOk_hang
  | replace i x v a e =>
    obtain ⟨c, hi, hx⟩ := l
    refine Agrees.step (replaceR_agrees (m := w.m) (x := x) (v := v) (t := a) hon (answersAll_of hi)) (g := w.put i) ?_ ?_ (fun _ _ => rfl) (fun _ => put_notOk) rfl
    · simp only [World.stepR, hi, Runs.bind_def, Runs.pure_def]
    · intro e'; simp only [Op.within, World.step, hi]
  | modify i x mod e =>
    obtain ⟨c, hi, hx⟩ := l
    refine Agrees.step (modifyR_agrees (m := w.m) (x := x) (mod := mod) hon (answersAll_of hi)) (g := w.put i) ?_ ?_ (fun _ _ => rfl) (fun _ => put_notOk) rfl
    · simp only [World.stepR, hi, Runs.bind_def, Runs.pure_def]
    · intro e'; simp only [Op.within, World.step, hi]
  | modifyRb i x mod back e e2 =>
    obtain ⟨c, hi, hx, hyp⟩ := l
    obtain ⟨hc, s, cl, sa, sc, z0, h0⟩ := I.facts hi
    have cx : Clear [x] c.ls := by
      intro z hz L hL
      obtain rfl : z = x := by simpa using hz
      exact cl z (sa z hx) L hL
    unfold StepAgrees
    simp only [World.stepR, hi, Runs.bind_def, Runs.pure_def, Op.within, World.step]
    refine Sim.bind (modifyRbR_agrees (m := w.m) (x := x) (mod := mod) (back := back) (e := e) (e2 := e2) hon (answersAll_of hi) s (I.nz' (sa x hx)) hx cx) ?_ ?_
    · rintro _ rfl
      exact Sim.done rfl
    · rintro r ⟨e', e2', l1, l2, l3, l4⟩
      exact Sim.done ⟨e', e2', l1, l2, by rw [l3], put_notOk l4⟩
  | rehash i k n e =>
    obtain ⟨c, L, hi, hL, le⟩ := l
    obtain ⟨hc, s, cl, sa, sc, z0, h0⟩ := I.facts hi
    obtain ⟨xs, q1, q2, q3⟩ := fit_get s.fit hL
    have hlen : c.count = xs.length := by rw [s.count, q3.length_eq]
    have nk : ∀ r : Out (Layer V), NotOk r → NotOk (w.putLayer i k c r) := by
      intro r hr
      cases r with
      | ok a => exact absurd rfl (hr a)
      | threw a => exact notOk_threw
      | ub => exact notOk_ub
      | hang => exact notOk_hang
    have es : ∀ e', w.step (.rehash i k n e') = w.putLayer i k c (L.rehash c.hd w.m.val c.count n e') := by
      intro e'
      simp only [World.step, hi, hL]
      cases L.rehash c.hd w.m.val c.count n e' <;> rfl
    unfold StepAgrees
    simp only [World.stepR, hi, hL, Runs.bind_def, Runs.pure_def, Op.within, es, Op.env, Op.env']
    refine Sim.bind (Layer.rehash_sim (okAll_get s.ok hL) q2 hlen le (fun z hz => sa z (q3.mem_iff.1 hz))) ?_ ?_
    · rintro _ rfl
      exact Sim.done rfl
    · rintro r ⟨e', l1, l2, l3⟩
      exact Sim.done ⟨fun _ => e', fun _ => e', fun _ => l1, fun _ => l1, by rw [l2], nk _ l3⟩
  | _ => exact Sim.done rfl

theorem envAll_like {hd : Id} {size : Nat} {pool : List Id} : ∀ {Ls : List (Layer V)} {e e' : Nat → Env}, (∀ k, (e k).Like (e' k)) → EnvAll hd size pool e Ls → EnvAll hd size pool e' Ls
  | [], _, _, _, _ => trivial
  | L :: Ls, e, e', l, h => by
    refine ⟨?_, envAll_like (fun k => l (k + 1)) h.2⟩
    have h1 := h.1
    obtain ⟨-, l2, -, l4⟩ := l 0
    cases L with
    | hash c eq hf pol ml hp a => simpa only [Layer.EnvOk, l2, l4] using h1
    | ord => trivial
    | seq => trivial
    | rnd => trivial

theorem legal_within {op : Op V} {e e' : Nat → Env} (l : w.Legal op) (h : ∀ k, (op.env k).Like (e k))
    (hb : ∀ i x mod back f f', op = .modifyRb i x mod back f f' → (∀ c, w.cs[i]? = some c → Restores c.asked mod back (w.m.val x)) ∨ ∀ k, (e k).Quiet) :
    w.Legal (op.within e e') := by
  cases op with
  | insert i v x f hint e => obtain ⟨c, h1, h2, h3, h4⟩ := l; exact ⟨c, h1, h2, h3, envAll_like h h4⟩
  | emplace i v x f hint e => obtain ⟨c, h1, h2, h3, h4⟩ := l; exact ⟨c, h1, h2, h3, envAll_like h h4⟩
  | insertNh i v hint e => obtain ⟨c, h1, h2, h3, h4⟩ := l; exact ⟨c, h1, h2, h3, envAll_like h h4⟩
  | transfer i j x e => obtain ⟨h0, c, d, h1, h2, h3, h4⟩ := l; exact ⟨h0, c, d, h1, h2, h3, envAll_like h h4⟩
  | replace => exact l
  | modify => exact l
  | modifyRb i x mod back e e2 =>
    obtain ⟨c, h1, h2, -⟩ := l
    exact ⟨c, h1, h2, (hb _ _ _ _ _ _ rfl).imp (fun q => q c h1) id⟩
  | rehash i k n e =>
    obtain ⟨c, L, h1, h2, h3⟩ := l
    refine ⟨c, L, h1, h2, ?_⟩
    obtain ⟨-, l2, -, l4⟩ := h 0
    cases L with
    | hash c eq hf pol ml hp a => simpa only [Layer.RehashOk, l2, l4, Op.env] using h3
    | ord => exact h3
    | seq => exact h3
    | rnd => exact h3
  | _ => exact l

end MI.Cont
