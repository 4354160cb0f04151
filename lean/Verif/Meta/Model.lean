/-!
# Index specifiers, tags, and the indices of a container

What the compiler computes from the second argument of `multi_index_container`: `none` where it stops with an error. Types are elements of `T`; two types are the same if they are equal elements.
-/
namespace MI.Meta
variable {T : Type} [DecidableEq T]

/-- An argument of an index specifier: absent (`mpl::na`), `tag<…>`, another type. -/
inductive Arg (T : Type) where
  | na
  | tag (ts : List T)
  | type (t : T)
  deriving DecidableEq

/-- A function object type: the default for a key extractor (`std::less`, `boost::hash`, `std::equal_to` of its result type: ord_index_args.hpp:43-47, hash_index_args.hpp:49-59), or the one supplied. -/
inductive Fn (T : Type) where
  | default (key : T)
  | given (a : Arg T)
  deriving DecidableEq

/-- `is_tag<T>`: tag.hpp:52-58. -/
def Arg.isTag : Arg T → Bool
  | .tag _ => true
  | _ => false

/-- `duplicate_tag_marker::apply`: no_duplicate_tags.hpp:36-48. A set is given by the list of its elements; `none` is `duplicate_tag_mark`, which is not a tag of the user. -/
def mark (set : List (Option T)) (t : T) : List (Option T) := (if some t ∈ set then none else some t) :: set

/-- `no_duplicate_tags<TagList>::value`: no_duplicate_tags.hpp:50-61. -/
def noDuplicateTags (ts : List T) : Bool := !decide (none ∈ ts.foldl mark [])

/-- `tag<…>::type`: tag.hpp:62-80. -/
def Arg.tagList : Arg T → Option (List T)
  | .tag ts => if noDuplicateTags ts then some ts else none
  | _ => none

/-- What is specific to the kind of an index. -/
inductive Kind (T : Type) where
  | ordered (u ranked : Bool) (key : T) (compare : Fn T)
  | hashed (u : Bool) (key : T) (hash pred : Fn T)
  | sequenced
  | randomAccess
  deriving DecidableEq

/-- An index class without its base: kind and list of tags. -/
structure Class (T : Type) where
  kind : Kind T
  tags : List T
  deriving DecidableEq

/-- The key extractor has to be a type with a `result_type`. Simplified: any type that is not absent and not a `tag`. -/
def Arg.key : Arg T → Option T
  | .type t => some t
  | _ => none

/-- `mpl::eval_if<mpl::is_na<supplied>,default,mpl::identity<supplied> >`: ord_index_args.hpp:66-70, hash_index_args.hpp:78-82, 87-91. -/
def Arg.orDefault (key : T) : Arg T → Fn T
  | .na => .default key
  | a => .given a

/-- `ordered_index_args<Arg1,Arg2,Arg3>`: ord_index_args.hpp:49-75. -/
def orderedArgs (u ranked : Bool) (a1 a2 a3 : Arg T) : Option (Class T) :=
  let tags := if a1.isTag then a1 else .tag []
  let key := if a1.isTag then a2 else a1
  let compare := if a1.isTag then a3 else a2
  match tags.tagList, key.key with
  | some ts, some k => some ⟨.ordered u ranked k (compare.orDefault k), ts⟩
  | _, _ => none

/-- `hashed_index_args<Arg1,Arg2,Arg3,Arg4>`: hash_index_args.hpp:61-97. -/
def hashedArgs (u : Bool) (a1 a2 a3 a4 : Arg T) : Option (Class T) :=
  let tags := if a1.isTag then a1 else .tag []
  let key := if a1.isTag then a2 else a1
  let hash := if a1.isTag then a3 else a2
  let pred := if a1.isTag then a4 else a3
  match tags.tagList, key.key with
  | some ts, some k => some ⟨.hashed u k (hash.orDefault k) (pred.orDefault k), ts⟩
  | _, _ => none

/-- Index specifiers: ordered_index.hpp:60-108, ranked_index.hpp:348-396, hashed_index.hpp:1836-1884, sequenced_index.hpp:1216-1232, random_access_index.hpp:1320-1337. -/
inductive Specifier (T : Type) where
  | ordered (u ranked : Bool) (a1 a2 a3 : Arg T)
  | hashed (u : Bool) (a1 a2 a3 a4 : Arg T)
  | sequenced (tags : Arg T)
  | randomAccess (tags : Arg T)

/-- `index_class`, without the base class: as `Specifier`. -/
def Specifier.indexClass : Specifier T → Option (Class T)
  | .ordered u r a1 a2 a3 => orderedArgs u r a1 a2 a3
  | .hashed u a1 a2 a3 a4 => hashedArgs u a1 a2 a3 a4
  | .sequenced a => a.tagList.map fun ts => ⟨.sequenced, ts⟩
  | .randomAccess a => a.tagList.map fun ts => ⟨.randomAccess, ts⟩

/-- The linear hierarchy of indices, each one derived from the next. -/
inductive Hier (T : Type) where
  | base
  | index (c : Class T) (super : Hier T)
  deriving DecidableEq

/-- `nth_layer<N,…>` and `index_applier`: base_type.hpp:35-60. -/
def nthLayer (specs : List (Specifier T)) (n : Nat) : Option (Hier T) :=
  if h : n < specs.length then
    match specs[n].indexClass, nthLayer specs (n + 1) with
    | some c, some s => some (.index c s)
    | _, _ => none
  else some .base
  termination_by specs.length - n

/-- `index_type_list`: `mpl::vector0<>` (index_base.hpp:71), and `mpl::push_front` of each index to that of its base (ord_index_impl.hpp:207-212, hashed_index.hpp:180-182,
sequenced_index.hpp:144-146, random_access_index.hpp:157-159). -/
def Hier.indexTypeList : Hier T → List (Hier T)
  | .base => []
  | .index c s => .index c s :: s.indexTypeList

/-- `Index::tag_list`. -/
def Hier.tagList : Hier T → List T
  | .base => []
  | .index c _ => c.tags

/-- `no_duplicate_tags_in_index_list<IndexList>::value`: no_duplicate_tags.hpp:67-89. -/
def noDuplicateTagsInIndexList (is : List (Hier T)) : Bool :=
  !decide (none ∈ is.foldl (fun set i => i.tagList.foldl mark set) [])

/-- Instantiation of `multi_index_container<Value,indexed_by<…> >`: `multi_index_base_type` with `is_index_list` (base_type.hpp:62-66, is_index_list.hpp:26-32) and the check of tags
(multi_index_container.hpp:170-171). -/
def container (specs : List (Specifier T)) : Option (Hier T) :=
  if specs.isEmpty then none
  else
    match nthLayer specs 0 with
    | none => none
    | some h => if noDuplicateTagsInIndexList h.indexTypeList then some h else none

/-- `nth_index<N>::type`, the type `get<N>()` returns a reference to: multi_index_container.hpp:419-424, 1233-1242. -/
def nthIndex (h : Hier T) (n : Int) : Option (Hier T) :=
  if 0 ≤ n ∧ n < h.indexTypeList.length then h.indexTypeList[n.toNat]? else none

/-- `index<Tag>::type`, the type `get<Tag>()` returns a reference to: multi_index_container.hpp:444-457, 1293-1309; has_tag.hpp:27-34. -/
def index (h : Hier T) (tag : T) : Option (Hier T) := h.indexTypeList.find? fun i => i.tagList.contains tag

end MI.Meta
