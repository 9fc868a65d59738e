import Verif.Model.Chars
/-!
# The example files in dandy-cli/tests and dandy/tests/test_files

Their contents, character by character. The examples used by the program with a window are in `Verif.Model.Window`.
-/

namespace Dandy
namespace Examples

/-- dandy-cli/tests/example_tree/user1/correct.dfa:1-6. -/
def correctDfa : Str := c!"       a b\n-> * 0 1 0\n     1 2 1\n   * 2 3 2\n     3 0 3\n     4 4 4\n"

/-- dandy-cli/tests/example_tree/user1/same.regex:1. -/
def sameRegex : Str := c!"b*(b*ab*ab*)*b*\n"

/-- dandy-cli/tests/example_tree/user2/incorrect.dfa:1-9. -/
def incorrectDfa : Str := c!"      a b\n-> a  b c\n   b  d e\n   c  d f\n * d  d e\n * e  g h\n * f  d f\n * g  g h\n * h  h h\n"

/-- dandy-cli/tests/example_tree/user3/invalid.dfa:1-3. -/
def invalidDfa : Str := c!"       a b\n-> * 1 2 3\n     2 1 1\n"

/-- dandy-cli/tests/example_tree/user4/unparsable.dfa:1. -/
def unparsableDfa : Str := c!"iasjfpskdfkm"

/-- dandy-cli/tests/example_tree/user5/correct_minimized.dfa:1-3. -/
def correctMinimizedDfa : Str := c!"       a b\n-> * 0 1 0\n     1 0 1\n"

/-- dandy-cli/tests/dfa1.dfa:1-4. -/
def dfa1 : Str := c!"          a    b\n-> * ok   fail ok\n     fail ok   fail\n     fail ok   fail\n"

/-- dandy-cli/tests/nfa1.nfa:1-5. -/
def nfa1 : Str := c!"           eps     a            b\n-> * ok    {other} {fail other} {ok}\n     fail  {other} {ok}         {fail}\n     other {inf}   {other}      {}\n     inf   {}      {other}      {other}\n"

/-- dandy-cli/tests/init_b.dfa:1-4. -/
def initB : Str := c!"     a b c\n-> i n y n\n   n n n n\n * y y y y\n"

/-- dandy-cli/tests/term_a.dfa:1-3. -/
def termA : Str := c!"     a b c\n-> n y n n\n * y y n n\n"

/-- dandy-cli/tests/eq_example2_nfa.dfa:1-9, dandy/tests/test_files/eq_to_nfa1.dfa:1-9 (without line end at the end). -/
def eqExample2 : Str := c!"      a b\n-> a  b c\n   b  d e\n   c  d f\n * d  d e\n * e  g h\n * f  d f\n * g  g h\n * h  h h"

/-- dandy-cli/tests/example3.nfa:1-11. -/
def example3Nfa : Str := c!"# An ε-NFA.\n\nε a b\n\n→ s₀ {a} {s₁ a} {s₀ s₂}\ns₁ {s₂} {s₄} {s₃ a}\ns₂ {} {s₁ s₄} {s₃}\ns₃ {s₅} {s₄ s₅ a} {}\ns₄ {s₃} {} {s₅}\n* s₅ {} {s₅ a} {s₅}\na {a} {a} {a}"

end Examples
end Dandy
