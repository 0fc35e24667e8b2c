import Verif.Model.Buffer
import Verif.Model.Repr
/-! # Showing the content of buffers

Models attributes of chunks (chunks.py:54, 63, 171-175) and `Buffer.show` (buffers.py:73-84). Simplification: the names of attributes do not
begin with an underscore (slots cannot have such names). -/
namespace Verif

/-- The attributes that all chunks have: those set by `Chunk.__init__` (chunks.py:92-93, 150), the methods and the class of chunks.py
(lines 63, 246, 320, 342), and what chunks inherit from `collections.abc.Sequence` (chunks.py:54). -/
def chunkAttributes : List String := ["typename", "boundvars", "actrchunk", "match", "removeempty", "removeunused", "EmptyValue", "count", "index"]

/-- The value of an attribute: one that is no slot, or a slot. -/
inductive AttrVal where
  | own (name : String)
  | slot (s : Slot)

/-- `getattr(chunk, name)`. Python calls `__getattr__` (chunks.py:171-175) only if there is no attribute of that name. None stands for AttributeError. -/
def Chunk.attr (c : Chunk) (name : String) : Option AttrVal :=
  if chunkAttributes.contains name then some (.own name) else (alook name c.slots).map .slot

/-- `str(...)` of the content of a slot: `varval_repr` or, for the empty value, `repr(None)` (chunks.py:80-81). -/
def slotStr : Slot → String
  | .empty => "None"
  | .vv x => varvalRepr x

/-- What is printed: a text, or the name of an attribute that is no slot together with this attribute (a method, for example). -/
inductive Printed where
  | text (s : String)
  | attribute (name : String)
deriving DecidableEq

/-- `Buffer.show(attr)` (buffers.py:73-84). None has no attributes (except such that begin with an underscore). -/
def BState.showAttr (st : BState) (name : String) : Printed :=
  match st.data with
  | [] => .text name
  | c :: _ =>
    match c.attr name with
    | some (.own n) => .attribute n
    | some (.slot s) => .text (name ++ (" " ++ slotStr s))
    | Option.none => .text name

end Verif
