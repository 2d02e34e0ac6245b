import Verif.Bzz

/-
The script src/include/table.bzz.
-/
namespace Buzz.Props

open Buzz.Msg Buzz.Lex Buzz.VM
open Buzz.Lang (Ast T2 Syn)

/-- src/include/table.bzz -/
def tableBzz : Bytes := ofLines [
  "#",
  "# Make 'table' namespace",
  "#",
  "table = {}",
  "",
  "#",
  "# Returns the maximum value in the table",
  "#",
  "table.max = function(t) {",
  "  return reduce(t, function(k, v, a) {",
  "      return math.max(v, a)",
  "    },",
  "    nil)",
  "}",
  "",
  "#",
  "# Returns the maximum key in the table",
  "#",
  "table.maxkey = function(t) {",
  "  return reduce(t, function(k, v, a) {",
  "      return math.max(k, a)",
  "    },",
  "    nil)",
  "}",
  "",
  "#",
  "# Returns the minimum value in the table",
  "#",
  "table.min = function(t) {",
  "  return reduce(t, function(k, v, a) {",
  "      return math.min(v, a)",
  "    },",
  "    nil)",
  "}",
  "",
  "#",
  "# Returns the minimum key in the table",
  "#",
  "table.minkey = function(t) {",
  "  return reduce(t, function(k, v, a) {",
  "      return math.min(k, a)",
  "    },",
  "    nil)",
  "}",
  "",
  "#",
  "# Prints the contents of a table.",
  "# PARAM t: The table",
  "#",
  "table.print = function(t) {",
  "  foreach(t, function(k,v) {",
  "      log(k, \" -> \", v)",
  "    })",
  "}",
  "",
  "#",
  "# Swap table elements.",
  "# PARAM t: The table",
  "# PARAM a: Index of first element ",
  "# PARAM b: Index of second element",
  "#",
  "table.swap = function(t, i, j) {",
  "  if(i != j) {",
  "    var k = t[i]",
  "    t[i] = t[j]",
  "    t[j] = k",
  "  }",
  "}",
  "",
  "#",
  "# Number comparator.",
  "# PARAM a: A number",
  "# PARAM b: A number",
  "# RETURN: nil if a > b, 1 otherwise",
  "#",
  "table.cmp_number = function(a, b) {",
  "  return (a <= b)",
  "}",
  "",
  "#",
  "# In-place table sorting.",
  "# Sorts the elements of a table using the given precedence comparator.",
  "# The comparator must follow this logic:",
  "# function cmp(a,b) {",
  "#   if(a <= b) return 1",
  "#   else return 0",
  "# }",
  "#",
  "# PARAM t:   The table",
  "# PARAM cmp: The comparator",
  "#",
  "table.sort = function(t, cmp) {",
  "  #",
  "  # Partition elements by pivot",
  "  #",
  "  partition = function(l, h) {",
  "    # We use the last element as pivot ",
  "    pivot = t[h]",
  "    # Used to mark the current element after the pivot",
  "    var i = l",
  "    # Move elements according to pivot",
  "    var j = l",
  "    while(j < h) {",
  "      # Compare current element with pivot",
  "      if(cmp(t[j], pivot)) {",
  "        # Swap current element with smallest",
  "        table.swap(t, i, j)",
  "        # Increase index of element after pivot",
  "        i = i + 1",
  "      }",
  "      # Next element",
  "      j = j + 1",
  "    }",
  "    # Swap pivot element with smallest",
  "    table.swap(t, i, h)",
  "    return i",
  "  }",
  "  #",
  "  # Quicksort",
  "  #",
  "  qsort = function(l, h) {",
  "    # There are still elements to partition",
  "    if(l < h) {",
  "      # Partitioning index",
  "      var p = partition(l, h)",
  "      # Sort elements before and after p",
  "      qsort(l, p-1)",
  "      qsort(p+1, h)",
  "    }",
  "  }",
  "  qsort(0, size(t)-1)",
  "}",
  "",
  "#",
  "# In-place table shuffling.",
  "# PARAM t: The table",
  "#",
  "table.shuffle = function(t) {",
  "  # Durstenfeld shuffle algorithm",
  "  var i = 0",
  "  var sz = size(t)",
  "  while(i < sz-1) {",
  "    var j = math.rng.uniform(i, sz)",
  "    table.swap(t, i, j)",
  "    i = i + 1",
  "  }",
  "}"]

namespace N
abbrev arrowText : Bytes := [32, 45, 62, 32]
abbrev a : Bytes := [97]
abbrev b : Bytes := [98]
abbrev cmp : Bytes := [99, 109, 112]
abbrev cmp_number : Bytes := [99, 109, 112, 95, 110, 117, 109, 98, 101, 114]
abbrev foreach : Bytes := [102, 111, 114, 101, 97, 99, 104]
abbrev h : Bytes := [104]
abbrev k : Bytes := [107]
abbrev l : Bytes := [108]
abbrev log : Bytes := [108, 111, 103]
abbrev math : Bytes := [109, 97, 116, 104]
abbrev max : Bytes := [109, 97, 120]
abbrev maxkey : Bytes := [109, 97, 120, 107, 101, 121]
abbrev min : Bytes := [109, 105, 110]
abbrev minkey : Bytes := [109, 105, 110, 107, 101, 121]
abbrev p : Bytes := [112]
abbrev partition : Bytes := [112, 97, 114, 116, 105, 116, 105, 111, 110]
abbrev pivot : Bytes := [112, 105, 118, 111, 116]
abbrev print : Bytes := [112, 114, 105, 110, 116]
abbrev qsort : Bytes := [113, 115, 111, 114, 116]
abbrev reduce : Bytes := [114, 101, 100, 117, 99, 101]
abbrev rng : Bytes := [114, 110, 103]
abbrev shuffle : Bytes := [115, 104, 117, 102, 102, 108, 101]
abbrev size : Bytes := [115, 105, 122, 101]
abbrev sort : Bytes := [115, 111, 114, 116]
abbrev swap : Bytes := [115, 119, 97, 112]
abbrev sz : Bytes := [115, 122]
abbrev table : Bytes := [116, 97, 98, 108, 101]
abbrev uniform : Bytes := [117, 110, 105, 102, 111, 114, 109]
abbrev v : Bytes := [118]
end N

/-- The body of `partition` in `table.sort`. -/
def partitionBody : Ast :=
  (.seq (.assign (.id N.pivot) (.index (.id N.t) (.id N.h)))
   (.seq (.init N.i (.id N.l))
   (.seq (.init N.j (.id N.l))
   (.seq (.while_ (.bin .lt (.id N.j) (.id N.h)) (.block (.seq (.ifs (.call (.id N.cmp) (.arg (.arg .noArg (.index (.id N.t) (.id N.j))) (.id N.pivot))) (.block (.seq (.run (.call (.field (.id N.table) N.swap) (.arg (.arg (.arg .noArg (.id N.t)) (.id N.i)) (.id N.j))))
   (.seq (.assign (.id N.i) (.bin .add (.id N.i) (.num N.d1)))
   .skip))))
   (.seq (.assign (.id N.j) (.bin .add (.id N.j) (.num N.d1)))
   .skip))))
   (.seq (.run (.call (.field (.id N.table) N.swap) (.arg (.arg (.arg .noArg (.id N.t)) (.id N.i)) (.id N.h))))
   (.seq (.ret (.id N.i))
   .skip))))))

/-- The body of `qsort` in `table.sort`. -/
def qsortBody : Ast :=
  (.seq (.ifs (.bin .lt (.id N.l) (.id N.h)) (.block (.seq (.init N.p (.call (.id N.partition) (.arg (.arg .noArg (.id N.l)) (.id N.h))))
   (.seq (.run (.call (.id N.qsort) (.arg (.arg .noArg (.id N.l)) (.bin .sub (.id N.p) (.num N.d1)))))
   (.seq (.run (.call (.id N.qsort) (.arg (.arg .noArg (.bin .add (.id N.p) (.num N.d1))) (.id N.h))))
   .skip)))))
   .skip)

/-- The body of `table.max`. -/
def tableMaxBody : Ast :=
  (.seq (.ret (.call (.id N.reduce) (.arg (.arg (.arg .noArg (.id N.t)) (.lam [N.k, N.v, N.a] (.seq (.ret (.call (.field (.id N.math) N.max) (.arg (.arg .noArg (.id N.v)) (.id N.a))))
   .skip))) .nil)))
   .skip)

/-- The body of `table.maxkey`. -/
def tableMaxKeyBody : Ast :=
  (.seq (.ret (.call (.id N.reduce) (.arg (.arg (.arg .noArg (.id N.t)) (.lam [N.k, N.v, N.a] (.seq (.ret (.call (.field (.id N.math) N.max) (.arg (.arg .noArg (.id N.k)) (.id N.a))))
   .skip))) .nil)))
   .skip)

/-- The body of `table.min`. -/
def tableMinBody : Ast :=
  (.seq (.ret (.call (.id N.reduce) (.arg (.arg (.arg .noArg (.id N.t)) (.lam [N.k, N.v, N.a] (.seq (.ret (.call (.field (.id N.math) N.min) (.arg (.arg .noArg (.id N.v)) (.id N.a))))
   .skip))) .nil)))
   .skip)

/-- The body of `table.minkey`. -/
def tableMinKeyBody : Ast :=
  (.seq (.ret (.call (.id N.reduce) (.arg (.arg (.arg .noArg (.id N.t)) (.lam [N.k, N.v, N.a] (.seq (.ret (.call (.field (.id N.math) N.min) (.arg (.arg .noArg (.id N.k)) (.id N.a))))
   .skip))) .nil)))
   .skip)

/-- The body of `table.print`. -/
def tablePrintBody : Ast :=
  (.seq (.run (.call (.id N.foreach) (.arg (.arg .noArg (.id N.t)) (.lam [N.k, N.v] (.seq (.run (.call (.id N.log) (.arg (.arg (.arg .noArg (.id N.k)) (.str N.arrowText)) (.id N.v))))
   .skip)))))
   .skip)

/-- The body of `table.swap`. -/
def tableSwapBody : Ast :=
  (.seq (.ifs (.bin .neq (.id N.i) (.id N.j)) (.block (.seq (.init N.k (.index (.id N.t) (.id N.i)))
   (.seq (.assign (.index (.id N.t) (.id N.i)) (.index (.id N.t) (.id N.j)))
   (.seq (.assign (.index (.id N.t) (.id N.j)) (.id N.k))
   .skip)))))
   .skip)

/-- The body of `table.cmp_number`. -/
def tableCmpNumberBody : Ast :=
  (.seq (.ret (.bin .lte (.id N.a) (.id N.b)))
   .skip)

/-- The body of `table.sort`. -/
def tableSortBody : Ast :=
  (.seq (.assign (.id N.partition) (.lam [N.l, N.h] partitionBody))
   (.seq (.assign (.id N.qsort) (.lam [N.l, N.h] qsortBody))
   (.seq (.run (.call (.id N.qsort) (.arg (.arg .noArg (.num N.d0)) (.bin .sub (.call (.id N.size) (.arg .noArg (.id N.t))) (.num N.d1)))))
   .skip)))

/-- The body of `table.shuffle`. -/
def tableShuffleBody : Ast :=
  (.seq (.init N.i (.num N.d0))
   (.seq (.init N.sz (.call (.id N.size) (.arg .noArg (.id N.t))))
   (.seq (.while_ (.bin .lt (.id N.i) (.bin .sub (.id N.sz) (.num N.d1))) (.block (.seq (.init N.j (.call (.field (.field (.id N.math) N.rng) N.uniform) (.arg (.arg .noArg (.id N.i)) (.id N.sz))))
   (.seq (.run (.call (.field (.id N.table) N.swap) (.arg (.arg (.arg .noArg (.id N.t)) (.id N.i)) (.id N.j))))
   (.seq (.assign (.id N.i) (.bin .add (.id N.i) (.num N.d1)))
   .skip)))))
   .skip)))

/-- The script. -/
def tableAst : Ast :=
  (.seq (.assign (.id N.table) .tnew)
   (.seq (.assign (.field (.id N.table) N.max) (.lam [N.t] tableMaxBody))
   (.seq (.assign (.field (.id N.table) N.maxkey) (.lam [N.t] tableMaxKeyBody))
   (.seq (.assign (.field (.id N.table) N.min) (.lam [N.t] tableMinBody))
   (.seq (.assign (.field (.id N.table) N.minkey) (.lam [N.t] tableMinKeyBody))
   (.seq (.assign (.field (.id N.table) N.print) (.lam [N.t] tablePrintBody))
   (.seq (.assign (.field (.id N.table) N.swap) (.lam [N.t, N.i, N.j] tableSwapBody))
   (.seq (.assign (.field (.id N.table) N.cmp_number) (.lam [N.a, N.b] tableCmpNumberBody))
   (.seq (.assign (.field (.id N.table) N.sort) (.lam [N.t, N.cmp] tableSortBody))
   (.seq (.assign (.field (.id N.table) N.shuffle) (.lam [N.t] tableShuffleBody))
   .skip))))))))))

/-- The pieces of the text. -/
def tableParts : List Part := scan 3000 (tableBzz ++ [10])

set_option maxRecDepth 20000 in
theorem table_read : parts tableParts = tableBzz ++ [10] ∧ partsOk tableParts = true ∧ Lang.astOf (sigToks (partToks [] 1 0 tableParts)) = some tableAst := by decide +kernel

end Buzz.Props
