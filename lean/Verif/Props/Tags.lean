import Verif.Meta.Lemmas
/-!
# C86: indices by number and by tag

A container is written with a list of index specifiers, each of which may have tags. `get<N>()` and `get<Tag>()` give the index of the N-th specifier and the index of the specifier that has
the tag (doc/tutorial/basics.html, "Tagging"; doc/reference/multi_index_container.html, "Retrieval of indices", "Projection of iterators"). The compiler decides; what it computes is in `Verif/Meta/Model.lean`. `Specifier.names`, `Specifier.Wf` (`Verif/Meta/Spec.lean`): what the user wrote.
-/
namespace MI.Meta
variable {T : Type} [DecidableEq T]

/-- C86: which containers are accepted: those with an index, with specifiers written as documented and with no tag used twice, within an index or in different ones. -/
theorem C86_accepted (specs : List (Specifier T)) :
    (∃ h, container specs = some h) ↔ specs ≠ [] ∧ (∀ s ∈ specs, s.Wf) ∧ (specs.flatMap Specifier.names).Nodup := by
  constructor
  · rintro ⟨h, k⟩
    obtain ⟨a, b, cs, c, -⟩ := (container_spec specs h).1 k
    refine ⟨a, fun s hs => ?_, b⟩
    have : s.indexClass ∈ cs.map some := c ▸ List.mem_map_of_mem hs
    obtain ⟨d, -, e⟩ := List.mem_map.1 this
    exact ((class_isSome s).1 ⟨d, e.symm⟩).1
  · rintro ⟨a, b, c⟩
    have : ∃ cs : List (Class T), specs.map Specifier.indexClass = cs.map some := by
      clear a
      induction specs with
      | nil => exact ⟨[], rfl⟩
      | cons s specs ih =>
        rw [List.flatMap_cons, List.nodup_append] at c
        obtain ⟨cs, e⟩ := ih (fun z hz => b z (by simp [hz])) c.2.1
        obtain ⟨d, e'⟩ := (class_isSome s).2 ⟨b s (by simp), c.1⟩
        exact ⟨d :: cs, by simp [e, e']⟩
    obtain ⟨cs, e⟩ := this
    exact ⟨build cs, (container_spec specs _).2 ⟨a, c, cs, e, rfl⟩⟩

/-- C86: `get<N>()` gives the index of the N-th specifier, there are as many indices as specifiers, and different numbers give different indices. -/
theorem C86_number {specs : List (Specifier T)} {h : Hier T} (hc : container specs = some h) :
    (∀ n : Int, (∃ x, nthIndex h n = some x) ↔ 0 ≤ n ∧ n < specs.length) ∧
    (∀ (n : Nat) s, specs[n]? = some s → ∃ c base, s.indexClass = some c ∧ nthIndex h n = some (.index c base)) ∧
    (∀ m n x, nthIndex h m = some x → nthIndex h n = some x → m = n) := by
  obtain ⟨-, -, cs, e, rfl⟩ := (container_spec specs h).1 hc
  have len : cs.length = specs.length := by simpa using (congrArg List.length e).symm
  have get : ∀ n : Int, 0 ≤ n → n < specs.length → ∃ c, cs[n.toNat]? = some c ∧ nthIndex (build cs) n = some (.index c (build (cs.drop (n.toNat + 1)))) := by
    intro n a b
    have hn : n.toNat < cs.length := by omega
    refine ⟨cs[n.toNat], List.getElem?_eq_getElem hn, ?_⟩
    rw [nthIndex, if_pos ⟨a, by rw [build_list, len]; exact b⟩]
    exact build_get cs _ _ (List.getElem?_eq_getElem hn)
  have bound : ∀ n x, nthIndex (build cs) n = some x → 0 ≤ n ∧ n < specs.length := by
    intro n x k
    unfold nthIndex at k
    split at k
    · rename_i q; rw [build_list, len] at q; exact q
    · cases k
  refine ⟨fun n => ⟨fun ⟨x, k⟩ => bound n x k, fun ⟨a, b⟩ => ?_⟩, fun n s hs => ?_, fun m n x k1 k2 => ?_⟩
  · obtain ⟨c, -, k⟩ := get n a b
    exact ⟨_, k⟩
  · have hn : n < specs.length := (List.getElem?_eq_some_iff.1 hs).1
    obtain ⟨c, k1, k2⟩ := get n (by omega) (by omega)
    refine ⟨c, _, ?_, k2⟩
    have := congrArg (·[n]?) e
    simpa [hs, show cs[n]? = some c by simpa using k1] using this
  · obtain ⟨a, b⟩ := bound m x k1
    obtain ⟨a', b'⟩ := bound n x k2
    obtain ⟨c, -, l1⟩ := get m a b
    obtain ⟨d, -, l2⟩ := get n a' b'
    have := l1.symm.trans (k1.trans (k2.symm.trans l2))
    simp only [Option.some.injEq, Hier.index.injEq] at this
    have := congrArg Hier.depth this.2
    rw [build_depth, build_depth, List.length_drop, List.length_drop] at this
    omega

/-- C86: `get<Tag>()` gives the index of the specifier with that tag, whichever the place of the tag and of the specifier, and is rejected if there is none. -/
theorem C86_tag {specs : List (Specifier T)} {h : Hier T} (hc : container specs = some h) (t : T) :
    (∀ (n : Nat) s, specs[n]? = some s → (index h t = nthIndex h n ↔ t ∈ s.names)) ∧
    (index h t = none ↔ ∀ s ∈ specs, t ∉ s.names) := by
  obtain ⟨-, nd, cs, e, rfl⟩ := (container_spec specs h).1 hc
  obtain ⟨-, N2, N3⟩ := C86_number hc
  have len : cs.length = specs.length := by simpa using (congrArg List.length e).symm
  have key : ∀ {cs : List (Class T)} {n : Nat} {c : Class T}, (cs.flatMap (·.tags)).Nodup → cs[n]? = some c → t ∈ c.tags →
      index (build cs) t = some (.index c (build (cs.drop (n + 1)))) := by
    intro cs
    induction cs with
    | nil => intro n c _ h; cases h
    | cons d cs ih =>
      intro n c nd hn ht
      rw [List.flatMap_cons, List.nodup_append] at nd
      cases n with
      | zero =>
        cases hn
        simp [index, build, Hier.indexTypeList, Hier.tagList, ht]
      | succ n =>
        have hn : cs[n]? = some c := by simpa using hn
        have : t ∉ d.tags := fun k => nd.2.2 t k t (List.mem_flatMap.2 ⟨c, List.mem_of_getElem? hn, ht⟩) rfl
        have := ih nd.2.1 hn ht
        simp_all [index, build, Hier.indexTypeList, Hier.tagList]
  have none' : index (build cs) t = none ↔ ∀ s ∈ specs, t ∉ s.names := by
    rw [index, List.find?_eq_none]
    have a : (∀ x ∈ (build cs).indexTypeList, ¬ (x.tagList.contains t) = true) ↔ t ∉ (build cs).indexTypeList.flatMap Hier.tagList := by simp
    rw [a, build_tags, tags_names e]
    simp
  refine ⟨fun n s hs => ?_, none'⟩
  obtain ⟨c, base, k1, k2⟩ := N2 n s hs
  constructor
  · intro k
    rw [k2] at k
    have := List.find?_some k
    rw [← class_names k1]
    simpa [Hier.tagList] using this
  · intro ht
    have hn : cs[n]? = some c := by
      have := congrArg (·[n]?) e
      simp only [List.getElem?_map, hs, Option.map_some, k1] at this
      rcases q : cs[n]? with _ | d
      · rw [q] at this; cases this
      · rw [q] at this; simpa using this.symm
    rw [key (by rw [tags_names e]; exact nd) hn (by rw [class_names k1]; exact ht)]
    rw [nthIndex, if_pos ⟨by omega, by rw [build_list]; have := (List.getElem?_eq_some_iff.1 hn).1; omega⟩]
    exact (build_get cs n c hn).symm

/-- C86: the two forms of the specifiers of ordered indices. -/
theorem C86_ordered_forms (u r : Bool) {ts : List T} (hts : ts.Nodup) (k c : T) :
    (Specifier.ordered u r (.type k) .na .na).indexClass = some ⟨.ordered u r k (.default k), []⟩ ∧
    (Specifier.ordered u r (.type k) (.type c) .na).indexClass = some ⟨.ordered u r k (.given (.type c)), []⟩ ∧
    (Specifier.ordered u r (.tag ts) (.type k) .na).indexClass = some ⟨.ordered u r k (.default k), ts⟩ ∧
    (Specifier.ordered u r (.tag ts) (.type k) (.type c)).indexClass = some ⟨.ordered u r k (.given (.type c)), ts⟩ := by
  have e := (noDup_iff ts).2 hts
  have e0 := (noDup_iff ([] : List T)).2 List.nodup_nil
  simp [Specifier.indexClass, orderedArgs, Arg.isTag, Arg.tagList, Arg.key, Arg.orDefault, e, e0]

/-- C86: the two forms of the specifiers of hashed indices. -/
theorem C86_hashed_forms (u : Bool) {ts : List T} (hts : ts.Nodup) (k f p : T) :
    (Specifier.hashed u (.type k) .na .na .na).indexClass = some ⟨.hashed u k (.default k) (.default k), []⟩ ∧
    (Specifier.hashed u (.type k) (.type f) .na .na).indexClass = some ⟨.hashed u k (.given (.type f)) (.default k), []⟩ ∧
    (Specifier.hashed u (.type k) (.type f) (.type p) .na).indexClass = some ⟨.hashed u k (.given (.type f)) (.given (.type p)), []⟩ ∧
    (Specifier.hashed u (.tag ts) (.type k) .na .na).indexClass = some ⟨.hashed u k (.default k) (.default k), ts⟩ ∧
    (Specifier.hashed u (.tag ts) (.type k) (.type f) .na).indexClass = some ⟨.hashed u k (.given (.type f)) (.default k), ts⟩ ∧
    (Specifier.hashed u (.tag ts) (.type k) (.type f) (.type p)).indexClass = some ⟨.hashed u k (.given (.type f)) (.given (.type p)), ts⟩ := by
  have e := (noDup_iff ts).2 hts
  have e0 := (noDup_iff ([] : List T)).2 List.nodup_nil
  simp [Specifier.indexClass, hashedArgs, Arg.isTag, Arg.tagList, Arg.key, Arg.orDefault, e, e0]

/-- `indexed_by<ordered_unique<tag<a,b>,k>, sequenced<>, hashed_non_unique<tag<c>,k>, ordered_non_unique<k'> >`. -/
def exSpecs : List (Specifier String) :=
  [.ordered true false (.tag ["a", "b"]) (.type "k") .na, .sequenced (.tag []), .hashed false (.tag ["c"]) (.type "k") .na .na, .ordered false false (.type "k'") .na .na]

example : ∃ h, container exSpecs = some h ∧ index h "c" = nthIndex h 2 ∧ index h "b" = nthIndex h 0 ∧ index h "d" = none := by
  obtain ⟨h, hc⟩ := (C86_accepted exSpecs).2 ⟨by simp [exSpecs], by simp [exSpecs, Specifier.Wf], by simp [exSpecs, Specifier.names]⟩
  exact ⟨h, hc, ((C86_tag hc "c").1 2 _ rfl).2 (by simp [Specifier.names]), ((C86_tag hc "b").1 0 _ rfl).2 (by simp [Specifier.names]), (C86_tag hc "d").2.2 (by simp [exSpecs, Specifier.names])⟩

/-- A tag used by two indices. -/
example : ¬ ∃ h, container [.sequenced (.tag ["a"]), .randomAccess (.tag ["b", "a"])] = some h := by
  rw [C86_accepted]
  simp [Specifier.names]

end MI.Meta
