import Verif.Mt.Inv
import Mathlib.Data.List.Dedup
import Mathlib.Tactic.Choose
/-!
Programs that are safe to run end, whatever other threads do.
-/
set_option linter.unusedVariables false
namespace MI.Mt
open MI MI.Safe

/-- The program makes finitely many steps, then `Q`; other threads may run in between. -/
inductive Term (P : Perm) (Q : G → Prop) : Code → G → Prop
  | done {g : G} : Q g → Term P Q .done g
  | pick {c : Code} {g : G} (N : G → Code → Mem → G)
    (h1 : ∀ h, Agree P g h → GRep h → ∀ c' m, c.exec P.t h.toMem = some (c', m) → (N h c' m).toMem = m ∧ Act P h (N h c' m) ∧ wp P Q c' (N h c' m))
    (h2 : ∀ h, Agree P g h → GRep h → ∀ c' m, c.exec P.t h.toMem = some (c', m) → Term P Q c' (N h c' m)) : Term P Q c g

def TW (P : Perm) (Q : G → Prop) (c : Code) (g : G) : Prop := wp P Q c g ∧ Term P Q c g

theorem Term.step {P : Perm} {Q : G → Prop} {c : Code} {g : G}
    (w : ∀ h, Agree P g h → GRep h → ∀ c' m, c.exec P.t h.toMem = some (c', m) → ∃ g', g'.toMem = m ∧ Act P h g' ∧ TW P Q c' g') : Term P Q c g := by
  classical
  refine .pick (fun h c' m => if k : Agree P g h ∧ GRep h ∧ c.exec P.t h.toMem = some (c', m) then (w h k.1 k.2.1 c' m k.2.2).choose else h) ?_ ?_
  · intro h a r c' m e
    rw [dif_pos ⟨a, r, e⟩]
    have := (w h a r c' m e).choose_spec
    exact ⟨this.1, this.2.1, this.2.2.1⟩
  · intro h a r c' m e
    rw [dif_pos ⟨a, r, e⟩]
    exact (w h a r c' m e).choose_spec.2.2.2

theorem tw {P : Perm} {Q : G → Prop} {c : Code} {g : G} (w0 : wp P Q c g)
    (w : ∀ h, Agree P g h → GRep h → ∀ c' m, c.exec P.t h.toMem = some (c', m) → ∃ g', g'.toMem = m ∧ Act P h g' ∧ TW P Q c' g') : TW P Q c g := ⟨w0, Term.step w⟩

section
variable {P : Perm} {Q : G → Prop} (hQ : ∀ g h, Agree P g h → Q g → Q h)
include hQ

theorem Term.stable {c : Code} {g h : G} (w : Term P Q c g) (a : Agree P g h) : Term P Q c h := by
  cases w with
  | done w => exact .done (hQ g h a w)
  | pick N w1 w2 => exact .pick N (fun i b r => w1 i (a.trans b) r) fun i b r => w2 i (a.trans b) r

theorem TW.stable {c : Code} {g h : G} (w : TW P Q c g) (a : Agree P g h) : TW P Q c h := ⟨wp.stable hQ w.1 a, w.2.stable hQ a⟩

theorem term_rdCont {g : G} {y : Nat} {k : Nat → Code} (h1 : P.sees y) (w : TW P Q (k (g.cont y)) g) : TW P Q (.rdCont y k) g :=
  ⟨⟨h1, w.1⟩, Term.step fun h a r c' m e => by
    simp only [Code.exec, Option.some.injEq, Prod.mk.injEq] at e
    obtain ⟨rfl, rfl⟩ := e
    exact ⟨h, rfl, .skip, by rw [a.cont y h1]; exact w.stable hQ a⟩⟩

theorem term_rdVal {g : G} {y : Nat} {k : Id × Bool → Code} (h1 : P.sees y) (w : TW P Q (k (g.val y)) g) : TW P Q (.rdVal y k) g :=
  ⟨⟨h1, w.1⟩, Term.step fun h a r c' m e => by
    simp only [Code.exec, Option.some.injEq, Prod.mk.injEq] at e
    obtain ⟨rfl, rfl⟩ := e
    exact ⟨h, rfl, .skip, by rw [a.val y h1]; exact w.stable hQ a⟩⟩

theorem term_rdLink {g : G} {p : Link} {k : Nat → Code} (h1 : P.canLink g p) (w : TW P Q (k (g.link p)) g) : TW P Q (.rdLink p k) g :=
  ⟨⟨h1, w.1⟩, Term.step fun h a r c' m e => by
    simp only [Code.exec, Option.some.injEq, Prod.mk.injEq] at e
    obtain ⟨rfl, rfl⟩ := e
    exact ⟨h, rfl, .skip, by rw [a.link p h1]; exact w.stable hQ a⟩⟩

theorem term_wrCont {g : G} {y v : Nat} {k : Code} (h1 : P.mine y) (w : TW P Q k (g.setCont y v)) : TW P Q (.wrCont y v k) g :=
  ⟨⟨h1, w.1⟩, Term.step fun h a r c' m e => by
    simp only [Code.exec, Option.some.injEq, Prod.mk.injEq] at e
    obtain ⟨rfl, rfl⟩ := e
    exact ⟨_, rfl, .cont v h1, w.stable hQ (agree_cont a y v)⟩⟩

theorem term_wrVal {g : G} {y : Nat} {v : Id × Bool} {k : Code} (h1 : P.mine y) (w : TW P Q k (g.setVal y v)) : TW P Q (.wrVal y v k) g :=
  ⟨⟨h1, w.1⟩, Term.step fun h a r c' m e => by
    simp only [Code.exec, Option.some.injEq, Prod.mk.injEq] at e
    obtain ⟨rfl, rfl⟩ := e
    exact ⟨_, rfl, .val v h1, w.stable hQ (agree_val a y v)⟩⟩

theorem term_wrLink {g g' : G} {p : Link} {v : Nat} {k : Code} (h1 : WL P g p v g') (w : TW P Q k g') : TW P Q (.wrLink p v k) g :=
  ⟨⟨_, h1, w.1⟩, Term.step fun h a r c' m e => by
    simp only [Code.exec, Option.some.injEq, Prod.mk.injEq] at e
    obtain ⟨rfl, rfl⟩ := e
    obtain ⟨h', v1, v2⟩ := agree_WL a h1
    refine ⟨h', ?_, .wl v1, w.stable hQ v2⟩
    cases v1 <;> rfl⟩

theorem term_test {g : G} {a b : Nat} {k : Bool → Code} (h1 : P.sees a) (h2 : P.sees b)
    (h3 : (g.cont a ≠ 0 ∨ (g.val a).2 = true) ∧ (g.cont b ≠ 0 ∨ (g.val b).2 = true) ∧ ((g.cont a ≠ 0 ∧ g.cont b ≠ 0 ∧ g.cont a = g.cont b) ∨ (g.val a).2 = true ∨ (g.val b).2 = true))
    (w : TW P Q (k ((g.val a).1 == (g.val b).1)) g) : TW P Q (testCode a b k) g := by
  unfold testCode
  refine term_rdCont hQ h1 (term_rdVal hQ h1 (term_rdCont hQ h2 (term_rdVal hQ h2 ?_)))
  rw [if_pos h3]
  exact w

theorem term_sweep {neg : Bool} {it t s : Nat} {k : Code} (hk : ∀ g, wp P Q k g → TW P Q k g) : ∀ {l : List Nat} {g : G} {p : Link}, SweepOk P g it t s p l →
    wp P Q k (g.swept neg it t p l) → TW P Q (.sweep neg it t p k) g
  | [], g, p, o, w => tw ⟨s, [], o, w⟩ fun h a r c' m e => by
    simp only [Code.exec, Option.some.injEq, Prod.mk.injEq] at e
    obtain ⟨rfl, rfl⟩ := e
    have o' := o.agree a
    refine ⟨h, rfl, .skip, ?_⟩
    rw [if_pos (show h.link p = 0 from o'.path)]
    exact hk h (wp.stable hQ w a)
  | y :: l, g, p, o, w => tw ⟨s, y :: l, o, w⟩ fun h a r c' m e => by
    simp only [Code.exec, Option.some.injEq, Prod.mk.injEq] at e
    obtain ⟨rfl, rfl⟩ := e
    refine ⟨h, rfl, .skip, ?_⟩
    have w := wp.stable hQ w (agree_swept (neg := neg) a o)
    have o := o.agree a
    clear a r
    rw [o.path.1, if_neg o.path.2.2.1]
    have hy := o.mine y (by simp)
    have hc := o.cont y (by simp)
    obtain ⟨q1, q2, q3, q4, q5⟩ := o.path
    have htest : ∀ {k : Bool → Code}, TW P Q (k ((h.val y).1 == (h.val it).1)) h → TW P Q (testCode y it k) h := fun w =>
      term_test hQ (P.sub y hy) o.si ⟨.inl (by rw [hc]; exact o.z), .inl (by rw [o.ci]; exact o.z), .inl ⟨by rw [hc]; exact o.z, by rw [o.ci]; exact o.z, by rw [hc, o.ci]⟩⟩ w
    have hpass : h.hit neg it y = false → TW P Q (.sweep neg it t (.next y) k) h := fun e =>
      term_sweep hk o.passed (by unfold G.swept at w; rw [if_neg (by simp [e])] at w; exact w)
    have hcut : h.hit neg it y = true → TW P Q (.rdLink (.next y) fun z => .wrLink p z <| .wrCont y t <|
        if t = 0 then .sweep neg it t p k else .rdLink (.head t) fun h => .wrLink (.next y) h <| .wrLink (.head t) y <| .sweep neg it t p k) h := fun e => by
      unfold G.swept at w
      rw [if_pos e] at w
      have om := o.moved (hit_ne e)
      have tm := term_sweep hk om w
      refine term_rdLink hQ (canLink_of_In (p := .next y) o.z (.inl o.w) q4) (term_wrLink hQ (.cut o.z (.inl o.w) o.i q1 q3 q4 hy) (term_wrCont hQ hy ?_))
      unfold G.move at tm
      dsimp only at tm
      by_cases ht : t = 0
      · rw [if_pos ht] at tm ⊢
        exact tm
      · rw [if_neg ht] at tm ⊢
        have tw := o.tw.resolve_left ht
        have h0 : ((h.cut p y).setCont y t).lnk y = 0 := upd_same _ _ _
        refine term_rdLink hQ (.inl tw) (term_wrLink hQ (.next _ hy h0) (term_wrLink hQ (.push ht (.inl tw) q3 hy h0 ?_) tm))
        exact upd_same _ _ _
    unfold sweepBody
    dsimp only
    cases neg with
    | true =>
      rw [if_pos rfl]
      refine htest ?_
      by_cases e : (h.val y).1 = (h.val it).1
      · rw [if_pos (by simpa using e)]
        exact hpass (by simp [G.hit, e])
      · rw [if_neg (by simpa using e)]
        exact hcut (by simp [G.hit, e])
    | false =>
      rw [if_neg (by simp)]
      by_cases ei : y = it
      · rw [if_pos ei]
        exact hpass (by simp [G.hit, ei])
      · rw [if_neg ei]
        refine htest ?_
        by_cases e : (h.val y).1 = (h.val it).1
        · rw [if_pos (by simpa using e)]
          exact hcut (by simp [G.hit, e, ei])
        · rw [if_neg (by simpa using e)]
          exact hpass (by simp [G.hit, e])

theorem term_find {it s : Nat} {k : Link → Code} (hk : ∀ p g, wp P Q (k p) g → TW P Q (k p) g) : ∀ {l : List Nat} {g : G} {p : Link}, s ≠ 0 → P.held g s → g.In s p →
    Path g s p l it → wp P Q (k (lastLink p l)) g → TW P Q (.find it p k) g
  | l, g, p, w1, w2, w3, w4, w5 => tw ⟨s, l, w1, w2, w3, w4, w5⟩ fun h a r c' m e => by
    simp only [Code.exec, Option.some.injEq, Prod.mk.injEq] at e
    obtain ⟨rfl, rfl⟩ := e
    have v2 := (a.held s).2 w2
    have v3 := a.In w1 w2 w3
    have v4 := a.path w1 w2 w3 w4
    have v5 := wp.stable hQ w5 a
    refine ⟨h, rfl, .skip, ?_⟩
    match l with
    | [] => rw [if_pos (show h.link p = it from v4)]; exact hk p h v5
    | y :: l =>
      obtain ⟨q1, q2, q3, q4, q5⟩ := v4
      rw [q1, if_neg q2, if_neg q3]
      exact term_find hk w1 v2 q4 q5 v5
termination_by l => l.length

theorem term_setAll {v s : Nat} {k : Code} (hk : ∀ g, wp P Q k g → TW P Q k g) : ∀ {l : List Nat} {g : G} {y : Nat}, s ≠ 0 → P.wC s → Chain g.next y l →
    (∀ z ∈ l, P.mine z ∧ g.lnk z = s) → wp P Q k (g.contAll v l) → TW P Q (.setAll v y k) g
  | [], g, y, w1, w2, w3, w4, w5 => tw ⟨s, [], w1, w2, w3, w4, w5⟩ fun h a r c' m e => by
    simp only [Code.exec, if_pos (show y = 0 from w3), Option.some.injEq, Prod.mk.injEq] at e
    obtain ⟨rfl, rfl⟩ := e
    refine ⟨h, rfl, .skip, hk h ?_⟩
    have : g.contAll v [] = g := by simp [G.contAll]
    rw [this] at w5; exact wp.stable hQ w5 a
  | z :: l, g, y, w1, w2, ⟨q1, q2, q3⟩, w4, w5 => tw ⟨s, z :: l, w1, w2, ⟨q1, q2, q3⟩, w4, w5⟩ fun h a r c' m e => by
    subst q1
    simp only [Code.exec, if_neg q2, Option.some.injEq, Prod.mk.injEq] at e
    obtain ⟨rfl, rfl⟩ := e
    have hy := w4 y (by simp)
    refine ⟨_, rfl, .cont v hy.1, TW.stable hQ (g := g.setCont y v) ?_ (agree_cont a y v)⟩
    refine term_rdLink hQ (.inl ⟨by show g.lnk y ≠ 0; rw [hy.2]; exact w1, .inl (by show P.wC (g.lnk y); rw [hy.2]; exact w2)⟩)
      (term_setAll hk w1 w2 q3 (fun z hz => w4 z (by simp [hz])) ?_)
    have : (g.setCont y v).contAll v l = g.contAll v (y :: l) := by
      unfold G.contAll G.setCont
      congr 2
      funext z
      by_cases e : z ∈ l
      · simp [e]
      · by_cases e2 : z = y
        · subst e2; simp [upd_same]
        · rw [if_neg e, if_neg (by simp [e, e2])]
          exact upd_other _ _ e2
    rw [this]; exact w5

/-- A program that is safe to run ends. -/
theorem wp.ends : ∀ {c : Code} {g : G}, wp P Q c g → TW P Q c g
  | .done, g, w => ⟨w, .done w⟩
  | .crash, g, w => w.elim
  | .rdCont y k, g, ⟨w1, w2⟩ => term_rdCont hQ w1 (wp.ends w2)
  | .wrCont y v k, g, ⟨w1, w2⟩ => term_wrCont hQ w1 (wp.ends w2)
  | .rdVal y k, g, ⟨w1, w2⟩ => term_rdVal hQ w1 (wp.ends w2)
  | .wrVal y v k, g, ⟨w1, w2⟩ => term_wrVal hQ w1 (wp.ends w2)
  | .rdLink p k, g, ⟨w1, w2⟩ => term_rdLink hQ w1 (wp.ends w2)
  | .wrLink p v k, g, ⟨g', w1, w2⟩ => term_wrLink hQ w1 (wp.ends w2)
  | .lock s k, g, ⟨w1, w2, w3⟩ => tw ⟨w1, w2, w3⟩ fun h a r c' m e => by
    simp only [Code.exec] at e
    split at e
    · next hf =>
      simp only [Option.some.injEq, Prod.mk.injEq] at e
      obtain ⟨rfl, rfl⟩ := e
      exact ⟨_, rfl, .lock hf, wp.ends (w3 h a r)⟩
    · cases e
  | .unlock s k, g, ⟨w1, w2⟩ => tw ⟨w1, w2⟩ fun h a r c' m e => by
    simp only [Code.exec, Option.some.injEq, Prod.mk.injEq] at e
    obtain ⟨rfl, rfl⟩ := e
    exact ⟨_, rfl, .unlock ((a.mtx s).2 w1), (wp.ends w2).stable hQ (agree_unlock a s)⟩
  | .find it p k, g, ⟨s, l, w1, w2, w3, w4, w5⟩ => term_find hQ (fun p g w => wp.ends w) w1 w2 w3 w4 w5
  | .sweep neg it t p k, g, ⟨s, l, w1, w2⟩ => term_sweep hQ (fun g w => wp.ends w) w1 w2
  | .setAll v y k, g, ⟨s, l, w1, w2, w3, w4, w5⟩ => term_setAll hQ (fun g w => wp.ends w) w1 w2 w3 w4 w5
  | .xchg s d k, g, ⟨w1, w2, w3, w4, w5, w6, w7⟩ => tw ⟨w1, w2, w3, w4, w5, w6, w7⟩ fun h a r c' m e => by
    simp only [Code.exec, Option.some.injEq, Prod.mk.injEq] at e
    obtain ⟨rfl, rfl⟩ := e
    exact ⟨_, rfl, .xchg w1 w2 w3 w4 w5 fun y k => w6 y (by rwa [a.lnkS s y w1 (.inl w4), a.lnkS d y w2 (.inl w5)] at k),
      (wp.ends w7).stable hQ (agree_xchg a w1 w2 w4 w5)⟩

end

/-! ### all threads -/

/-- What is left to do, over all that other threads may do in between. -/
inductive Tree
  | done
  | pick (N : G → Code → Mem → G) (sub : G → Code → Mem → Tree)

def Fits (P : Perm) (Q : G → Prop) : Tree → Code → G → Prop
  | .done, c, g => c = .done ∧ Q g
  | .pick N sub, c, g => ∀ h, Agree P g h → GRep h → ∀ c' m, c.exec P.t h.toMem = some (c', m) →
      (N h c' m).toMem = m ∧ Act P h (N h c' m) ∧ wp P Q c' (N h c' m) ∧ Fits P Q (sub h c' m) c' (N h c' m)

theorem Term.fits {P : Perm} {Q : G → Prop} {c : Code} {g : G} (w : Term P Q c g) : ∃ T, Fits P Q T c g := by
  classical
  induction w with
  | done w => exact ⟨.done, rfl, w⟩
  | @pick c g N h1 h2 ih =>
    refine ⟨.pick N fun h c' m => if k : Agree P g h ∧ GRep h ∧ c.exec P.t h.toMem = some (c', m) then (ih h k.1 k.2.1 c' m k.2.2).choose else .done, ?_⟩
    intro h a r c' m e
    obtain ⟨e1, e2, e3⟩ := h1 h a r c' m e
    refine ⟨e1, e2, e3, ?_⟩
    dsimp only
    rw [dif_pos (show Agree P g h ∧ GRep h ∧ c.exec P.t h.toMem = some (c', m) from ⟨a, r, e⟩)]
    exact (ih h a r c' m e).choose_spec

inductive Less : Option Tree → Option Tree → Prop
  | fin {T : Tree} : Less none (some T)
  | sub {N : G → Code → Mem → G} {sub : G → Code → Mem → Tree} (h : G) (c : Code) (m : Mem) : Less (some (sub h c m)) (some (.pick N sub))

theorem less_acc : ∀ a, Acc Less a := by
  have hn : Acc Less none := ⟨_, fun b h => by cases h⟩
  have hs : ∀ T, Acc Less (some T) := fun T => by
    induction T with
    | done => exact ⟨_, fun b h => by cases h; exact hn⟩
    | pick N sub ih =>
      refine ⟨_, fun b h => ?_⟩
      cases h with
      | fin => exact hn
      | sub h c m => exact ih h c m
  intro a
  cases a with
  | none => exact hn
  | some T => exact hs T

/-- One of the threads `l` goes on. -/
def Fewer (l : List Tid) (f' f : Tid → Option Tree) : Prop := ∃ t ∈ l, ∃ a, Less a (f t) ∧ f' = upd f t a

theorem fewer_acc : ∀ (l : List Tid), l.Nodup → ∀ f, Acc (Fewer l) f
  | [], _, f => ⟨_, fun b ⟨t, h, _⟩ => by cases h⟩
  | t :: l, nd, f => by
    obtain ⟨n1, n2⟩ := List.nodup_cons.1 nd
    have key : ∀ a, Acc Less a → ∀ f, Acc (Fewer l) f → f t = a → Acc (Fewer (t :: l)) f := by
      intro a ha
      induction ha with
      | intro a _ iha =>
        intro f hf
        induction hf with
        | intro f _ ihf =>
          intro e
          refine ⟨_, fun f' ⟨u, hu, b, hb, e'⟩ => ?_⟩
          subst e'
          rcases List.mem_cons.1 hu with rfl | hu
          · exact iha b (by rw [← e]; exact hb) _ (fewer_acc l n2 _) (upd_same _ _ _)
          · exact ihf _ ⟨u, hu, b, hb, rfl⟩ (by rw [upd_other _ _ fun q => n1 (by rw [q]; exact hu)]; exact e)
    exact key _ (less_acc _) f (fewer_acc l n2 f) rfl

structure Fit (σ : Sys) (lnk : Nat → Nat) (f : Tid → Option Tree) : Prop where
  inv : Inv σ lnk
  fit : ∀ t th, σ.thr t = some th → ∃ T g, f t = some T ∧ Fits (th.perm t) (Post (th.perm t) (th.op.effect th.snap)) T th.code g ∧ Agree (th.perm t) g ⟨σ.mem, lnk⟩

theorem Inv.fit {σ : Sys} {lnk : Nat → Nat} (I : Inv σ lnk) : ∃ f, Fit σ lnk f := by
  classical
  have h : ∀ t th, σ.thr t = some th → ∃ T, Fits (th.perm t) (Post (th.perm t) (th.op.effect th.snap)) T th.code ⟨σ.mem, lnk⟩ :=
    fun t th ht => ((I.act t th ht).ends Post.stable).2.fits
  have h' : ∀ t, ∃ o : Option Tree, ∀ th, σ.thr t = some th → ∃ T, o = some T ∧ Fits (th.perm t) (Post (th.perm t) (th.op.effect th.snap)) T th.code ⟨σ.mem, lnk⟩ := fun t => by
    cases e : σ.thr t with
    | none => exact ⟨none, nofun⟩
    | some th =>
      obtain ⟨T, k⟩ := h t th e
      exact ⟨some T, fun th' e' => by cases e'; exact ⟨T, rfl, k⟩⟩
  choose f hf using h'
  refine ⟨f, I, fun t th ht => ?_⟩
  obtain ⟨T, k1, k2⟩ := hf t th ht
  exact ⟨T, _, k1, k2, .refl _ _⟩

theorem Fit.run {σ σ' : Sys} {lnk : Nat → Nat} {f : Tid → Option Tree} {t : Tid} (F : Fit σ lnk f) (he : σ.run t = some σ') :
    ∃ lnk' a, Fit σ' lnk' (upd f t a) ∧ Less a (f t) ∧ σ.thr t ≠ none := by
  unfold Sys.run at he
  split at he
  · cases he
  · next th ht =>
    obtain ⟨T, g, f1, f2, f3⟩ := F.fit t th ht
    split at he
    · next hc =>
      cases he
      refine ⟨lnk, none, ⟨F.inv.finish ht hc, fun u th' hu => ?_⟩, by rw [f1]; exact .fin, by rw [ht]; simp⟩
      by_cases e : u = t
      · subst e; simp only [upd_same] at hu; cases hu
      · simp only [upd_other _ _ e] at hu ⊢; exact F.fit u th' hu
    · next hc =>
      split at he
      · cases he
      · next c m hx =>
        cases he
        cases T with
        | done => exact absurd f2.1 hc
        | pick N sub =>
          obtain ⟨e1, e2, e3, e4⟩ := f2 _ f3 F.inv.rep c m hx
          generalize hg : N ⟨σ.mem, lnk⟩ c m = g' at e1 e2 e3 e4
          obtain ⟨m', lnk'⟩ := g'
          obtain rfl : m' = m := e1
          refine ⟨lnk', some (sub ⟨σ.mem, lnk⟩ c m'), ⟨F.inv.exec' ht e2 e3, fun u th' hu => ?_⟩, by rw [f1]; exact .sub _ _ _, by rw [ht]; simp⟩
          by_cases e : u = t
          · subst e
            simp only [upd_same] at hu ⊢
            cases hu
            exact ⟨_, _, rfl, e4, .refl _ _⟩
          · simp only [upd_other _ _ e] at hu ⊢
            obtain ⟨T', g', k1, k2, k3⟩ := F.fit u th' hu
            exact ⟨T', g', k1, k2, k3.trans (e2.other (F.inv.dis t u th th' ht hu (Ne.symm e)))⟩

theorem run_active {σ σ' : Sys} {t : Tid} (h : σ.run t = some σ') : ∀ u, σ'.thr u ≠ none → σ.thr u ≠ none := by
  intro u hu
  unfold Sys.run at h
  split at h
  · cases h
  · next th ht =>
    by_cases e : u = t
    · rw [e, ht]; simp
    · split at h
      · cases h; simp only [upd_other _ _ e] at hu; exact hu
      · split at h
        · cases h
        · cases h; simp only [upd_other _ _ e] at hu; exact hu

theorem Fit.acc {l : List Tid} {f : Tid → Option Tree} (h : Acc (Fewer l) f) : ∀ {σ : Sys} {lnk : Nat → Nat}, (∀ t, σ.thr t ≠ none → t ∈ l) → Fit σ lnk f →
    Acc (fun b a : Sys => ∃ t, a.run t = some b) σ := by
  induction h with
  | intro f _ ih =>
    intro σ lnk hl F
    refine ⟨_, fun σ' ⟨t, he⟩ => ?_⟩
    obtain ⟨lnk', a, F', ls, ha⟩ := F.run he
    exact ih _ ⟨t, hl t ha, a, ls, rfl⟩ (fun u hu => hl u (run_active he u hu)) F'

theorem ends {σ : Sys} (h : Reach Rules σ) (hf : ∃ l : List Tid, ∀ t, σ.thr t ≠ none → t ∈ l) : Acc (fun b a : Sys => ∃ t, a.run t = some b) σ := by
  classical
  obtain ⟨lnk, I⟩ := h.inv
  obtain ⟨f, F⟩ := I.fit
  obtain ⟨l, hl⟩ := hf
  exact Fit.acc (fewer_acc l.dedup l.nodup_dedup f) (fun t ht => by rw [List.mem_dedup]; exact hl t ht) F

end MI.Mt
