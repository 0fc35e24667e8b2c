/-! # Specification: slots that cannot be seen (property C91) -/
namespace Verif.Spec

/-- Names of attributes of chunks: what is stored in them, what can be done with them, and what sequences can do. -/
def Taken (name : String) : Prop := name ∈ ["typename", "boundvars", "actrchunk", "match", "removeempty", "removeunused", "EmptyValue", "count", "index"]

instance (name : String) : Decidable (Taken name) := inferInstanceAs (Decidable (_ ∈ _))

end Verif.Spec
