import Verif.Model.Base

/- Model of src/shared/named_object.{hpp,cpp}. -/

namespace Pooya

/-- The character test of `ValidName::emend` (src/shared/named_object.cpp:32).  C++ `char` may be
signed; bytes ≥ 128 are negative and fail all range tests, exactly as they do here. -/
def legalChar (c : UInt8) : Bool :=
  (97 ≤ c && c ≤ 122) || (65 ≤ c && c ≤ 90) || (48 ≤ c && c ≤ 57) || c == 95

/-- `ValidName::emend(std::string_view)` (src/shared/named_object.cpp:25-38). -/
def emend (name : Str) : Str :=
  name.map (fun c => if legalChar c then c else 95)

/-- `ValidName` (src/shared/named_object.hpp:26-67): a wrapper around the stored string. -/
structure ValidName where
  name : Str
deriving DecidableEq, Repr

/-- `ValidName(std::string_view)` (src/shared/named_object.hpp:42). -/
def ValidName.ofStr (s : Str) : ValidName := ⟨emend s⟩

/-- `ValidName()` (src/shared/named_object.hpp:40). -/
def ValidName.empty : ValidName := ⟨[]⟩

/-- `ValidName::append` (src/shared/named_object.hpp:31-37) for a `ValidName` argument, where
`emend(const ValidName&)` (line 66) returns the stored string unchanged. -/
def ValidName.append (a b : ValidName) (sep : Str) : ValidName := ⟨a.name ++ sep ++ b.name⟩

/-- `ValidName::append` for a string argument (emended first). -/
def ValidName.appendStr (a : ValidName) (b : Str) (sep : Str) : ValidName := ⟨a.name ++ sep ++ emend b⟩

/-- `operator/` on two names (src/shared/named_object.hpp:59-63); 47 is '/'. -/
def ValidName.slash (a b : ValidName) : ValidName := a.append b [47]

/-- `operator|` on a name and a string (src/shared/named_object.hpp:53-57); 46 is '.'. -/
def ValidName.pipe (a : ValidName) (b : Str) : ValidName := a.appendStr b [46]

/-- `operator/` on a name and a string (src/shared/named_object.hpp:59-63). -/
def ValidName.slashStr (a : ValidName) (b : Str) : ValidName := a.appendStr b [47]

/-- `operator|` on two names (src/shared/named_object.hpp:53-57). -/
def ValidName.pipeName (a b : ValidName) : ValidName := a.append b [46]

/-- `NamedObject` (src/shared/named_object.hpp:69-80). -/
structure NamedObject where
  nm : ValidName
deriving DecidableEq, Repr

/-- `NamedObject(const ValidName&)` reached from a string (implicit `ValidName(string_view)`),
as in `SignalImpl(std::string_view)` (src/signal/signal.hpp:41) and `Block::Block` (block.cpp:29). -/
def NamedObject.create (s : Str) : NamedObject := ⟨ValidName.ofStr s⟩

/-- `NamedObject::rename` (src/shared/named_object.hpp:79). -/
def NamedObject.rename (_ : NamedObject) (s : Str) : NamedObject := ⟨ValidName.ofStr s⟩

end Pooya
