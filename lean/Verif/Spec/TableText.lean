import Verif.Model.TableText
import Verif.Model.TableGen

/-!
# Specification for C112: tables as maps of maps
-/

namespace LL1
namespace TestTools

/-- A table made of Go maps: one entry for each row number, and in each row one entry for each byte. -/
def IsGoTable (t : Table) : Prop := (t.map (·.1)).Nodup ∧ ∀ e ∈ t, (e.2.map (·.1)).Nodup

/-- All terminals in the table are ASCII. -/
def AsciiTable (t : Table) : Prop := ∀ e ∈ t, ∀ cell ∈ e.2, ∀ s, ParserOp.terminal s ∈ cell.2 → ∀ c ∈ s, c.toNat < 128

/-- The same rows, and in each row the same cells. -/
def SameTable (t t' : Table) : Prop :=
  ∀ n, ((t.get n).isSome = (t'.get n).isSome) ∧ ∀ b, (t.get n).bind (·.get b) = (t'.get n).bind (·.get b)

/-- All terminals in the grammar are ASCII. -/
def AsciiGrammar (g : Grammar) : Prop :=
  ∀ rule ∈ g.rules, ∀ q ∈ rule.tail.sequences, ∀ s, Symbol.terminal s ∈ q.symbols → ∀ c ∈ s, c.toNat < 128

end TestTools
end LL1
