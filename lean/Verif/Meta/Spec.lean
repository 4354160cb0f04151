import Verif.Meta.Model
/-!
# What a user writes

As documented (doc/reference/ord_indices.html, hash_indices.html, multi_index_container.html, indices.html): the first argument of a specifier may be a list of tags; tags may not be repeated in a container.
-/
namespace MI.Meta
variable {T : Type}

/-- The tags written in a specifier. -/
def Specifier.names : Specifier T → List T
  | .ordered _ _ (.tag ts) _ _ => ts
  | .hashed _ (.tag ts) _ _ _ => ts
  | .sequenced (.tag ts) => ts
  | .randomAccess (.tag ts) => ts
  | _ => []

/-- The specifier is written as documented: it has a key extractor if it needs one, and only tags where only tags can be. -/
def Specifier.Wf : Specifier T → Prop
  | .ordered _ _ (.type _) _ _ => True
  | .ordered _ _ (.tag _) (.type _) _ => True
  | .hashed _ (.type _) _ _ _ => True
  | .hashed _ (.tag _) (.type _) _ _ => True
  | .sequenced (.tag _) => True
  | .randomAccess (.tag _) => True
  | _ => False

end MI.Meta
