import Verif.Model.TestDriver

/-!
# Specification for C111: reference files
-/

namespace LL1
namespace TestTools

/-- A Go map has one entry for each key. -/
def IsGoMap (m : Names) : Prop := (m.map (·.1)).Nodup

/-- No name contains a blank or a closing bracket. -/
def PlainNames (m : Names) : Prop := ∀ k v, m.get k = some v → 32 ∉ v ∧ 93 ∉ v

/-- The files a list of test cases refers to: two for each case that expects no error. -/
def refFiles (tests : List ParserTestCase) : List Str :=
  (tests.filter fun t => t.err = none).flatMap fun t => [t.parseTreeFile, t.namingMapFile]

end TestTools
end LL1
