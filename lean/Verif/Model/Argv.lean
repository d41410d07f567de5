import Verif.Model.Text

/-!
# Model of `parse_argv` (include/util/io.hpp), the specialisation for strings

`argv` is the list of the strings, the name of the program first; `argc` is its length. The general version differs in converting the string by `std::stod`,
which is not modelled.
-/

namespace BATS
namespace Txt

/-- io.hpp:43-56: the loop from an entry on -/
def argLoop (token dflt : Str) : List Str → Str
  | [] => dflt
  | entry :: as =>
    let p := getline '=' (Stream.ofStr entry) []
    if token = p.2 then (getline '\n' p.1 []).2 else argLoop token dflt as

/-- io.hpp:37-57 `parse_argv(argc, argv, token, default_return)` -/
def parseArgv (argv : List Str) (token dflt : Str) : Str := argLoop token dflt (argv.drop 1)

end Txt
end BATS
