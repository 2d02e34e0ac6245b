import Verif.LexCases
import Verif.AstParse

/-
Scripts of the repository as programs.
-/
namespace Buzz.Props

open Buzz.Msg Buzz.Lex Buzz.VM
open Buzz.Lang (Ast T2 Syn)

/-- A text given by its lines. -/
def ofLines (ls : List String) : Bytes := ls.flatMap (fun l => chars l ++ [10])

/-- src/include/string.bzz -/
def stringBzz : Bytes := ofLines [
  "#",
  "# Returns the string character at the given position.",
  "# PARAM s: The string",
  "# PARAM n: The position of the wanted character",
  "# RETURN The character at the wanted position, or nil",
  "#",
  "string.charat = function(s, n) {",
  "  return string.sub(s, n, n+1)",
  "}",
  "",
  "#",
  "# Returns the index of the first occurrence of the given string m",
  "# within another string s. If none is found, this function returns",
  "# nil.",
  "# PARAM s: The string",
  "# PARAM m: The string to match",
  "# RETURN: The position of the first match, or nil",
  "#",
  "string.indexoffirst = function(s, m) {",
  "  var ls = string.length(s)",
  "  var lm = string.length(m)",
  "  var i = 0",
  "  while(i < ls-lm+1) {",
  "    if(string.sub(s, i, i+lm) == m) return i",
  "    i = i + 1",
  "  }",
  "  return nil",
  "}",
  "",
  "#",
  "# Returns the index of the last occurrence of the given string m",
  "# within another string s. If none is found, this function returns",
  "# nil.",
  "# PARAM s: The string",
  "# PARAM m: The string to match",
  "# RETURN: The position of the last match, or nil",
  "#",
  "string.indexoflast = function(s, m) {",
  "  var ls = string.length(s)",
  "  var lm = string.length(m)",
  "  var i = ls - lm + 1",
  "  while(i >= 0) {",
  "    if(string.sub(s, i, i+lm) == m) return i",
  "    i = i - 1",
  "  }",
  "  return nil",
  "}",
  "",
  "#",
  "# Splits a string s using the delimiters in d. The string list is",
  "# returned in a table indexed by value (starting at 0).",
  "# PARAM s: The string",
  "# PARAM d: A string containing the delimiters",
  "# RETURN: A table containing the tokens",
  "#",
  "string.split = function(s, d) {",
  "  var i1 = 0  # index to move along s (token start)",
  "  var i2 = 0  # index to move along s (token end)",
  "  var c = 0   # token count",
  "  var t = {}  # token list",
  "  var ls = string.length(s)",
  "  var ld = string.length(d)",
  "  # Go through string s",
  "  while(i2 < ls) {",
  "    # Try every delimiter",
  "    var j = 0   # index to move along d",
  "    var f = nil # whether the delimiter was found or not",
  "    while(j < ld and (not f)) {",
  "      if(string.charat(s, i2) == string.charat(d, j)) {",
  "        # Delimiter found",
  "        f = 1",
  "        # Is it worth adding a new token?",
  "        if(i2 > i1) {",
  "          t[c] = string.sub(s, i1, i2)",
  "          c = c + 1",
  "        }",
  "        # Start new token",
  "        i1 = i2 + 1",
  "      }",
  "      else {",
  "        # Next delimiter",
  "        j = j + 1",
  "      }",
  "    }",
  "    # Next string character",
  "    i2 = i2 + 1",
  "  }",
  "  # Is it worth adding a new token?",
  "  if(i2 > i1) {",
  "    t[c] = string.sub(s, i1, i2)",
  "  }",
  "  # Return token list",
  "  return t;",
  "}"]

/-- The tokens without statement ends, by type and text. -/
def sigToks (ts : List Tok) : List T2 := (ts.filter (fun t => decide (t.type ≠ .statend))).map (fun t => (t.type, t.value))

/-! ### The names and numbers of the script -/

namespace N
abbrev d0 : Bytes := [48]
abbrev d1 : Bytes := [49]
abbrev c : Bytes := [99]
abbrev charat : Bytes := [99, 104, 97, 114, 97, 116]
abbrev d : Bytes := [100]
abbrev f : Bytes := [102]
abbrev i : Bytes := [105]
abbrev i1 : Bytes := [105, 49]
abbrev i2 : Bytes := [105, 50]
abbrev indexoffirst : Bytes := [105, 110, 100, 101, 120, 111, 102, 102, 105, 114, 115, 116]
abbrev indexoflast : Bytes := [105, 110, 100, 101, 120, 111, 102, 108, 97, 115, 116]
abbrev j : Bytes := [106]
abbrev ld : Bytes := [108, 100]
abbrev length : Bytes := [108, 101, 110, 103, 116, 104]
abbrev lm : Bytes := [108, 109]
abbrev ls : Bytes := [108, 115]
abbrev m : Bytes := [109]
abbrev n : Bytes := [110]
abbrev s : Bytes := [115]
abbrev split : Bytes := [115, 112, 108, 105, 116]
abbrev string : Bytes := [115, 116, 114, 105, 110, 103]
abbrev sub : Bytes := [115, 117, 98]
abbrev t : Bytes := [116]
end N

/-! ### The syntax tree -/

/-- The body of `string.charat`. -/
def charatBody : Ast :=
  (.seq (.ret (.call (.field (.id N.string) N.sub) (.arg (.arg (.arg .noArg (.id N.s)) (.id N.n)) (.bin .add (.id N.n) (.num N.d1)))))
   .skip)

/-- The body of `string.indexoffirst`. -/
def indexoffirstBody : Ast :=
  (.seq (.init N.ls (.call (.field (.id N.string) N.length) (.arg .noArg (.id N.s))))
   (.seq (.init N.lm (.call (.field (.id N.string) N.length) (.arg .noArg (.id N.m))))
   (.seq (.init N.i (.num N.d0))
   (.seq (.while_ (.bin .lt (.id N.i) (.bin .add (.bin .sub (.id N.ls) (.id N.lm)) (.num N.d1))) (.block (.seq (.ifs (.bin .eq (.call (.field (.id N.string) N.sub) (.arg (.arg (.arg .noArg (.id N.s)) (.id N.i)) (.bin .add (.id N.i) (.id N.lm)))) (.id N.m)) (.ret (.id N.i)))
   (.seq (.assign (.id N.i) (.bin .add (.id N.i) (.num N.d1)))
   .skip))))
   (.seq (.ret .nil)
   .skip)))))

/-- The body of `string.indexoflast`. -/
def indexoflastBody : Ast :=
  (.seq (.init N.ls (.call (.field (.id N.string) N.length) (.arg .noArg (.id N.s))))
   (.seq (.init N.lm (.call (.field (.id N.string) N.length) (.arg .noArg (.id N.m))))
   (.seq (.init N.i (.bin .add (.bin .sub (.id N.ls) (.id N.lm)) (.num N.d1)))
   (.seq (.while_ (.bin .gte (.id N.i) (.num N.d0)) (.block (.seq (.ifs (.bin .eq (.call (.field (.id N.string) N.sub) (.arg (.arg (.arg .noArg (.id N.s)) (.id N.i)) (.bin .add (.id N.i) (.id N.lm)))) (.id N.m)) (.ret (.id N.i)))
   (.seq (.assign (.id N.i) (.bin .sub (.id N.i) (.num N.d1)))
   .skip))))
   (.seq (.ret .nil)
   .skip)))))

/-- The body of `string.split`. -/
def splitBody : Ast :=
  (.seq (.init N.i1 (.num N.d0))
   (.seq (.init N.i2 (.num N.d0))
   (.seq (.init N.c (.num N.d0))
   (.seq (.init N.t .tnew)
   (.seq (.init N.ls (.call (.field (.id N.string) N.length) (.arg .noArg (.id N.s))))
   (.seq (.init N.ld (.call (.field (.id N.string) N.length) (.arg .noArg (.id N.d))))
   (.seq (.while_ (.bin .lt (.id N.i2) (.id N.ls)) (.block (.seq (.init N.j (.num N.d0))
   (.seq (.init N.f .nil)
   (.seq (.while_ (.bin .land (.bin .lt (.id N.j) (.id N.ld)) (.un .lnot (.id N.f))) (.block (.seq (.ite (.bin .eq (.call (.field (.id N.string) N.charat) (.arg (.arg .noArg (.id N.s)) (.id N.i2))) (.call (.field (.id N.string) N.charat) (.arg (.arg .noArg (.id N.d)) (.id N.j)))) (.block (.seq (.assign (.id N.f) (.num N.d1))
   (.seq (.ifs (.bin .gt (.id N.i2) (.id N.i1)) (.block (.seq (.assign (.index (.id N.t) (.id N.c)) (.call (.field (.id N.string) N.sub) (.arg (.arg (.arg .noArg (.id N.s)) (.id N.i1)) (.id N.i2))))
   (.seq (.assign (.id N.c) (.bin .add (.id N.c) (.num N.d1)))
   .skip))))
   (.seq (.assign (.id N.i1) (.bin .add (.id N.i2) (.num N.d1)))
   .skip)))) (.block (.seq (.assign (.id N.j) (.bin .add (.id N.j) (.num N.d1)))
   .skip)))
   .skip)))
   (.seq (.assign (.id N.i2) (.bin .add (.id N.i2) (.num N.d1)))
   .skip))))))
   (.seq (.ifs (.bin .gt (.id N.i2) (.id N.i1)) (.block (.seq (.assign (.index (.id N.t) (.id N.c)) (.call (.field (.id N.string) N.sub) (.arg (.arg (.arg .noArg (.id N.s)) (.id N.i1)) (.id N.i2))))
   .skip)))
   (.seq (.ret (.id N.t))
   .skip)))))))))

/-- The script. -/
def stringAst : Ast :=
  (.seq (.assign (.field (.id N.string) N.charat) (.lam [N.s, N.n] charatBody))
   (.seq (.assign (.field (.id N.string) N.indexoffirst) (.lam [N.s, N.m] indexoffirstBody))
   (.seq (.assign (.field (.id N.string) N.indexoflast) (.lam [N.s, N.m] indexoflastBody))
   (.seq (.assign (.field (.id N.string) N.split) (.lam [N.s, N.d] splitBody))
   .skip))))

deriving instance DecidableEq for Lang.Ast

/-- The pieces of the text. -/
def stringParts : List Part := scan 3000 (stringBzz ++ [10])

set_option maxRecDepth 20000 in
theorem string_read : parts stringParts = stringBzz ++ [10] ∧ partsOk stringParts = true ∧ Lang.astOf (sigToks (partToks [] 1 0 stringParts)) = some stringAst := by decide +kernel

end Buzz.Props
