import Verif.Meta.Spec
/-!
# Lemmas on specifiers and tags
-/
namespace MI.Meta
variable {T : Type} [DecidableEq T]

theorem mark_none : ∀ {ts : List T} {S : List (Option T)}, none ∈ S → none ∈ ts.foldl mark S
  | [], _, h => h
  | t :: ts, S, h => mark_none (ts := ts) (S := mark S t) (List.mem_cons_of_mem _ h)

theorem mark_spec : ∀ {ts : List T} {S : List T}, none ∉ ts.foldl mark (S.map some) ↔ ts.Nodup ∧ ∀ t ∈ ts, t ∉ S
  | [], S => by simp
  | t :: ts, S => by
    by_cases h : t ∈ S
    · have e : (t :: ts).foldl mark (S.map some) = ts.foldl mark (none :: S.map some) := by simp [mark, h]
      rw [e]
      constructor
      · intro k; exact absurd (mark_none (by simp)) k
      · rintro ⟨-, k⟩; exact absurd h (k t (by simp))
    · have e : (t :: ts).foldl mark (S.map some) = ts.foldl mark ((t :: S).map some) := by simp [mark, h]
      rw [e, mark_spec]
      simp only [List.nodup_cons, List.mem_cons, not_or]
      constructor
      · rintro ⟨a, b⟩
        exact ⟨⟨fun k => (b t k).1 rfl, a⟩, fun z hz => by
          rcases hz with rfl | hz
          · exact h
          · exact (b z hz).2⟩
      · rintro ⟨⟨a, b⟩, c⟩
        exact ⟨b, fun z hz => ⟨fun e => a (e ▸ hz), c z (Or.inr hz)⟩⟩

theorem noDup_iff (ts : List T) : noDuplicateTags ts = true ↔ ts.Nodup := by
  have := mark_spec (ts := ts) (S := [])
  simp only [List.map_nil, List.not_mem_nil, not_false_eq_true, implies_true, and_true] at this
  simp [noDuplicateTags, ← this]

theorem foldl_flat : ∀ (is : List (Hier T)) (S : List (Option T)), is.foldl (fun set i => i.tagList.foldl mark set) S = (is.flatMap Hier.tagList).foldl mark S
  | [], _ => rfl
  | i :: is, S => by simp [foldl_flat is]

theorem noDupList_iff (is : List (Hier T)) : noDuplicateTagsInIndexList is = true ↔ (is.flatMap Hier.tagList).Nodup := by
  rw [← noDup_iff]
  simp [noDuplicateTagsInIndexList, noDuplicateTags, foldl_flat]

theorem class_names {s : Specifier T} {c : Class T} (h : s.indexClass = some c) : c.tags = s.names := by
  cases s with
  | ordered u r a1 a2 a3 =>
    cases a1 <;> cases a2 <;> simp [Specifier.indexClass, orderedArgs, Arg.isTag, Arg.tagList, Arg.key] at h <;> (repeat' split at h) <;> simp_all [Specifier.names] <;> (subst h; rfl)
  | hashed u a1 a2 a3 a4 =>
    cases a1 <;> cases a2 <;> simp [Specifier.indexClass, hashedArgs, Arg.isTag, Arg.tagList, Arg.key] at h <;> (repeat' split at h) <;> simp_all [Specifier.names] <;> (subst h; rfl)
  | sequenced a => cases a <;> simp [Specifier.indexClass, Arg.tagList] at h; simp [Specifier.names, ← h.2]
  | randomAccess a => cases a <;> simp [Specifier.indexClass, Arg.tagList] at h; simp [Specifier.names, ← h.2]

theorem class_isSome (s : Specifier T) : (∃ c, s.indexClass = some c) ↔ s.Wf ∧ s.names.Nodup := by
  cases s with
  | ordered u r a1 a2 a3 =>
    cases a1 <;> cases a2 <;> simp [Specifier.indexClass, orderedArgs, Arg.isTag, Arg.tagList, Arg.key, Specifier.Wf, Specifier.names, ← noDup_iff] <;> split <;> simp_all <;> (rename_i h1 _; obtain ⟨a, rfl⟩ := h1; exact a)
  | hashed u a1 a2 a3 a4 =>
    cases a1 <;> cases a2 <;> simp [Specifier.indexClass, hashedArgs, Arg.isTag, Arg.tagList, Arg.key, Specifier.Wf, Specifier.names, ← noDup_iff] <;> split <;> simp_all <;> (rename_i h1 _; obtain ⟨a, rfl⟩ := h1; exact a)
  | sequenced a => cases a <;> simp [Specifier.indexClass, Arg.tagList, Specifier.Wf, Specifier.names, ← noDup_iff]
  | randomAccess a => cases a <;> simp [Specifier.indexClass, Arg.tagList, Specifier.Wf, Specifier.names, ← noDup_iff]

/-- The layers made of the specifiers `ss`, with their classes `cs`. -/
def build : List (Class T) → Hier T
  | [] => .base
  | c :: cs => .index c (build cs)

theorem nthLayer_spec (specs : List (Specifier T)) : ∀ (m n : Nat), n + m = specs.length → ∀ h, nthLayer specs n = some h ↔ ∃ cs, (specs.drop n).map Specifier.indexClass = cs.map some ∧ h = build cs
  | 0, n, e, h => by
    have hn : ¬ n < specs.length := by omega
    have hd : specs.drop n = [] := List.drop_eq_nil_of_le (by omega)
    rw [nthLayer, dif_neg hn, hd]
    constructor
    · intro k; cases k; exact ⟨[], rfl, rfl⟩
    · rintro ⟨cs, a, rfl⟩
      cases cs with
      | nil => rfl
      | cons c cs => cases a
  | m + 1, n, e, h => by
    have hn : n < specs.length := by omega
    have ih := nthLayer_spec specs m (n + 1) (by omega)
    rw [nthLayer, dif_pos hn, List.drop_eq_getElem_cons hn, List.map_cons]
    constructor
    · intro k
      rcases ec : specs[n].indexClass with _ | c
      · rw [ec] at k; cases k
      rcases el : nthLayer specs (n + 1) with _ | s
      · rw [ec, el] at k; cases k
      rw [ec, el] at k; cases k
      obtain ⟨cs, a, rfl⟩ := (ih s).1 el
      exact ⟨c :: cs, by rw [a]; rfl, rfl⟩
    · rintro ⟨cs, a, rfl⟩
      cases cs with
      | nil => cases a
      | cons c cs =>
        simp only [List.map_cons, List.cons.injEq] at a
        rw [a.1, (ih (build cs)).2 ⟨cs, a.2, rfl⟩]
        rfl

/-- How deep the hierarchy is. -/
def Hier.depth : Hier T → Nat
  | .base => 0
  | .index _ s => s.depth + 1

theorem build_depth : ∀ cs : List (Class T), (build cs).depth = cs.length
  | [] => rfl
  | _ :: cs => by simp [build, Hier.depth, build_depth cs]

theorem build_list : ∀ cs : List (Class T), (build cs).indexTypeList.length = cs.length
  | [] => rfl
  | _ :: cs => by simp [build, Hier.indexTypeList, build_list cs]

theorem build_get : ∀ (cs : List (Class T)) (n : Nat) (c : Class T), cs[n]? = some c → (build cs).indexTypeList[n]? = some (.index c (build (cs.drop (n + 1))))
  | [], _, _, h => nomatch h
  | d :: cs, 0, c, h => by cases h; rfl
  | d :: cs, n + 1, c, h => by simpa [build, Hier.indexTypeList] using build_get cs n c (by simpa using h)

theorem build_tags : ∀ cs : List (Class T), (build cs).indexTypeList.flatMap Hier.tagList = cs.flatMap (·.tags)
  | [] => rfl
  | c :: cs => by simp [build, Hier.indexTypeList, Hier.tagList, build_tags cs]

theorem tags_names : ∀ {specs : List (Specifier T)} {cs : List (Class T)}, specs.map Specifier.indexClass = cs.map some → cs.flatMap (·.tags) = specs.flatMap Specifier.names
  | [], [], _ => rfl
  | s :: specs, c :: cs, h => by
    simp only [List.map_cons, List.cons.injEq] at h
    simp [class_names h.1, tags_names h.2]

theorem container_spec (specs : List (Specifier T)) (h : Hier T) : container specs = some h ↔
    specs ≠ [] ∧ (specs.flatMap Specifier.names).Nodup ∧ ∃ cs, specs.map Specifier.indexClass = cs.map some ∧ h = build cs := by
  have k := nthLayer_spec specs specs.length 0 (by omega)
  simp only [List.drop_zero] at k
  unfold container
  cases specs with
  | nil => simp
  | cons s specs =>
    simp only [List.isEmpty_cons, Bool.false_eq_true, if_false, ne_eq, reduceCtorEq, not_false_eq_true, true_and]
    rcases e : nthLayer (s :: specs) 0 with _ | g
    · simp only [reduceCtorEq, false_iff, not_and]
      intro _ hc
      exact absurd ((k h).2 hc) (by rw [e]; simp)
    · obtain ⟨cs, a, rfl⟩ := (k g).1 e
      have t : ((build cs).indexTypeList.flatMap Hier.tagList) = (s :: specs).flatMap Specifier.names := by rw [build_tags, tags_names a]
      simp only
      constructor
      · intro q
        split at q
        · cases q
          rename_i q
          exact ⟨t ▸ (noDupList_iff _).1 q, cs, a, rfl⟩
        · cases q
      · rintro ⟨q, cs', a', rfl⟩
        have : nthLayer (s :: specs) 0 = some (build cs') := (k _).2 ⟨cs', a', rfl⟩
        rw [e] at this
        rw [if_pos ((noDupList_iff _).2 (t.symm ▸ q))]
        exact this

end MI.Meta
