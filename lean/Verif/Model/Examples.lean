/-
Example grammars of the repository: tokens of descriptions and texts of generated files.

Descriptions are given as tokens (see `Model/LangDef.lean`): comments and spaces are dropped.
-/
import Verif.Model.LlxGen

namespace Verif.Model.Examples

open Verif.Model.LangDef

/-- A name. -/
def n (x : String) : Except LErr LTok := .ok ⟨.name, bytesOf x⟩
/-- A type name. -/
def t (x : String) : Except LErr LTok := .ok ⟨.tokenName, bytesOf x⟩
/-- A directive. -/
def d (x : String) : Except LErr LTok := .ok ⟨.dir, bytesOf x⟩
/-- A string. -/
def s (x : String) : Except LErr LTok := .ok ⟨.string, bytesOf x⟩
/-- A regular expression. -/
def r (x : String) : Except LErr LTok := .ok ⟨.regexp, bytesOf x⟩
/-- An operator. -/
def o (c : Char) : Except LErr LTok := .ok ⟨.op, [c.toNat]⟩

/-- `/repo/examples/calc/internal/grammar.llx`, the whole file. -/
def calcDescription : List (Except LErr LTok) := [
    d "!side", t "$space", o ';', d "!group", t "$minus", o ';', t "$space", o '=', r "/\\s+/", o ';', t "$number", o '=',
    r "/-?\\d+(?:\\.\\d+)?(?:[Ee]-?\\d+)?/", o ';', t "$name", o '=', r "/[A-Za-z][A-Za-z0-9_]*/", o ';', t "$op", o '=',
    r "/[(),=*\\/^+-]/", o ';', t "$minus", o '=', r "/-/", o ';', n "calcGrammar", o '=', n "expr", o '|', n "assign", o '|', n "func",
    o ';', n "func", o '=', t "$name", o ',', s "\"(\"", o ',', o '[', t "$name", o ',', o '{', s "\",\"", o ',', t "$name", o '}',
    o ']', o ',', s "\")\"", o ',', s "\"=\"", o ',', n "expr", o ';', n "assign", o '=', t "$name", o ',', s "\"=\"", o ',', n "expr",
    o ';', n "expr", o '=', o '[', s "\"-\"", o ']', o ',', n "pro", o ',', o '{', s "\"+\"", o '|', s "\"-\"", o ',', n "pro", o '}',
    o ';', n "pro", o '=', n "pow", o ',', o '{', s "\"*\"", o '|', s "\"/\"", o ',', n "pow", o '}', o ';', n "pow", o '=', n "value",
    o ',', o '[', s "\"^\"", o ',', n "pow", o ']', o ';', n "value", o '=', t "$number", o '|', t "$name", o '|', n "call", o '|',
    o '(', s "\"(\"", o ',', n "expr", o ',', s "\")\"", o ')', o ';', n "call", o '=', t "$name", o ',', s "\"(\"", o ',', o '[',
    n "expr", o ',', o '{', s "\",\"", o ',', n "expr", o '}', o ']', o ',', s "\")\"", o ';']

/-- `/repo/examples/calc/internal/grammar.go`, the whole file by lines. -/
def calcLines : List String := [
    "// Code generated with llxgen.", "", "package internal", "", "import \"github.com/ava12/llx/grammar\"", "",
    "var calcGrammar = &grammar.Grammar{", "\tTokens: []grammar.Token{", "\t\t{Name: \"space\", Re: \"\\\\s+\", Group: 0, Flags: 4},",
    "\t\t{Name: \"number\", Re: \"-?\\\\d+(?:\\\\.\\\\d+)?(?:[Ee]-?\\\\d+)?\", Group: 0, Flags: 0},",
    "\t\t{Name: \"name\", Re: \"[A-Za-z][A-Za-z0-9_]*\", Group: 0, Flags: 0},",
    "\t\t{Name: \"op\", Re: \"[(),=*\\\\/^+-]\", Group: 0, Flags: 0},", "\t\t{Name: \"minus\", Re: \"-\", Group: 1, Flags: 0},",
    "\t\t{Name: \"(\", Re: \"\", Group: 0, Flags: 1},", "\t\t{Name: \",\", Re: \"\", Group: 0, Flags: 1},",
    "\t\t{Name: \")\", Re: \"\", Group: 0, Flags: 1},", "\t\t{Name: \"=\", Re: \"\", Group: 0, Flags: 1},",
    "\t\t{Name: \"-\", Re: \"\", Group: 0, Flags: 1},", "\t\t{Name: \"+\", Re: \"\", Group: 0, Flags: 1},",
    "\t\t{Name: \"*\", Re: \"\", Group: 0, Flags: 1},", "\t\t{Name: \"/\", Re: \"\", Group: 0, Flags: 1},",
    "\t\t{Name: \"^\", Re: \"\", Group: 0, Flags: 1},", "\t},", "\tNodes: []grammar.Node{",
    "\t\t{Name: \"calcGrammar\", FirstState: 0},", "\t\t{Name: \"expr\", FirstState: 1},", "\t\t{Name: \"assign\", FirstState: 5},",
    "\t\t{Name: \"func\", FirstState: 8},", "\t\t{Name: \"pro\", FirstState: 16},", "\t\t{Name: \"pow\", FirstState: 19},",
    "\t\t{Name: \"value\", FirstState: 22},", "\t\t{Name: \"call\", FirstState: 25},", "\t},", "\tStates: []grammar.State{",
    "\t\t{31, 0, 1, 0, 3}, // calcGrammar(0)", "\t\t{31, 0, 0, 6, 10}, // expr(1)", "\t\t{15, 0, 0, 10, 13},", "\t\t{25, 0, 0, 13, 16},",
    "\t\t{15, 0, 0, 16, 19},", "\t\t{5, 0, 0, 19, 20}, // assign(5)", "\t\t{9, 0, 0, 20, 21},", "\t\t{31, 0, 0, 21, 25},",
    "\t\t{5, 0, 0, 25, 26}, // func(8)", "\t\t{9, 0, 0, 26, 27},", "\t\t{13, 0, 0, 27, 29},", "\t\t{9, 0, 0, 29, 30},",
    "\t\t{9, 0, 0, 30, 31},", "\t\t{31, 0, 0, 31, 35},", "\t\t{9, 0, 0, 35, 37},", "\t\t{5, 0, 0, 37, 38},",
    "\t\t{15, 0, 0, 38, 41}, // pro(16)", "\t\t{9, 0, 0, 41, 44},", "\t\t{15, 0, 0, 44, 47},", "\t\t{15, 0, 0, 47, 50}, // pow(19)",
    "\t\t{9, 0, 0, 50, 52},", "\t\t{15, 0, 0, 52, 55},", "\t\t{15, 1, 2, 55, 57}, // value(22)", "\t\t{31, 0, 0, 59, 63},",
    "\t\t{9, 0, 0, 63, 64},", "\t\t{5, 0, 0, 64, 65}, // call(25)", "\t\t{9, 0, 0, 65, 66},", "\t\t{31, 0, 0, 66, 71},",
    "\t\t{9, 0, 0, 71, 72},", "\t\t{9, 0, 0, 72, 74},", "\t\t{31, 0, 0, 74, 78},", "\t},", "\tMultiRules: []grammar.MultiRule{",
    "\t\t{2, 3, 6}, // 0(0)", "\t\t{2, 57, 59}, // 22(1)", "\t},", "\tRules: []grammar.Rule{", "\t\t{1, -1, 1}, // 0(0)",
    "\t\t{5, -1, 1},", "\t\t{9, -1, 1},", "\t\t{2, -1, 1},", "\t\t{2, -1, 2},", "\t\t{2, -1, 3},", "\t\t{1, 3, 4}, // 1(6)",
    "\t\t{2, 3, 4},", "\t\t{5, 3, 4},", "\t\t{9, 2, -1},", "\t\t{1, 3, 4}, // 2(10)", "\t\t{2, 3, 4},", "\t\t{5, 3, 4},",
    "\t\t{-1, -1, -1}, // 3(13)", "\t\t{9, 4, -1},", "\t\t{10, 4, -1},", "\t\t{1, 3, 4}, // 4(16)", "\t\t{2, 3, 4},", "\t\t{5, 3, 4},",
    "\t\t{2, 6, -1}, // 5(19)", "\t\t{8, 7, -1}, // 6(20)", "\t\t{1, -1, 1}, // 7(21)", "\t\t{2, -1, 1},", "\t\t{5, -1, 1},",
    "\t\t{9, -1, 1},", "\t\t{2, 9, -1}, // 8(25)", "\t\t{5, 10, -1}, // 9(26)", "\t\t{2, 14, -1}, // 10(27)", "\t\t{7, 12, -1},",
    "\t\t{7, 12, -1}, // 11(29)", "\t\t{8, 13, -1}, // 12(30)", "\t\t{1, -1, 1}, // 13(31)", "\t\t{2, -1, 1},", "\t\t{5, -1, 1},",
    "\t\t{9, -1, 1},", "\t\t{-1, 11, -1}, // 14(35)", "\t\t{6, 15, -1},", "\t\t{2, 14, -1}, // 15(37)", "\t\t{1, 17, 5}, // 16(38)",
    "\t\t{2, 17, 5},", "\t\t{5, 17, 5},", "\t\t{-1, -1, -1}, // 17(41)", "\t\t{11, 18, -1},", "\t\t{12, 18, -1},",
    "\t\t{1, 17, 5}, // 18(44)", "\t\t{2, 17, 5},", "\t\t{5, 17, 5},", "\t\t{1, 20, 6}, // 19(47)", "\t\t{2, 20, 6},", "\t\t{5, 20, 6},",
    "\t\t{-1, -1, -1}, // 20(50)", "\t\t{13, 21, -1},", "\t\t{1, -1, 5}, // 21(52)", "\t\t{2, -1, 5},", "\t\t{5, -1, 5},",
    "\t\t{1, -1, -1}, // 22(55)", "\t\t{5, 23, -1},", "\t\t{2, -1, -1},", "\t\t{2, -1, 7},", "\t\t{1, 24, 1}, // 23(59)",
    "\t\t{2, 24, 1},", "\t\t{5, 24, 1},", "\t\t{9, 24, 1},", "\t\t{7, -1, -1}, // 24(63)", "\t\t{2, 26, -1}, // 25(64)",
    "\t\t{5, 27, -1}, // 26(65)", "\t\t{1, 29, 1}, // 27(66)", "\t\t{2, 29, 1},", "\t\t{5, 29, 1},", "\t\t{7, -1, -1},",
    "\t\t{9, 29, 1},", "\t\t{7, -1, -1}, // 28(71)", "\t\t{-1, 28, -1}, // 29(72)", "\t\t{6, 30, -1},", "\t\t{1, 29, 1}, // 30(74)",
    "\t\t{2, 29, 1},", "\t\t{5, 29, 1},", "\t\t{9, 29, 1},", "\t},", "}"]

/-- `/repo/examples/conf-edit/internal/grammar.llx`, the whole file. -/
def confDescription : List (Except LErr LTok) := [
    d "!side", t "$space", t "$comment", o ';', d "!literal", t "$op", o ';', d "!group", t "$value", o ';', d "!group", t "$sec-name",
    o ';', t "$space", o '=', r "/[ \\t]+/", o ';', t "$comment", o '=', r "/#.*?(?:\\n|$)/", o ';', t "$nl", o '=', r "/\\n/", o ';',
    t "$sec-name", o '=', r "/[a-zA-Z_][a-zA-Z_0-9]*(?:[.-][a-zA-Z_][a-zA-Z_0-9]*)*/", o ';', t "$name", o '=',
    r "/[a-zA-Z_][a-zA-Z_0-9]*(?:-[a-zA-Z_][a-zA-Z_0-9]*)*/", o ';', t "$op", o '=', r "/[\\[\\]=]/", o ';', t "$value", o '=',
    r "/\\S[^\\n#]*/", o ';', n "confGrammar", o '=', o '[', n "def-section", o ']', o ',', o '{', n "section", o '}', o ';',
    n "def-section", o '=', n "entry", o '|', n "sep", o ',', o '{', n "entry", o '|', n "sep", o '}', o ';', n "section", o '=',
    n "header", o ',', o '{', n "entry", o '|', n "sep", o '}', o ';', n "entry", o '=', t "$name", o ',', s "'='", o ',', o '[',
    t "$value", o ']', o ',', o '[', t "$nl", o ']', o ';', n "header", o '=', s "'['", o ',', t "$sec-name", o ',', s "']'", o ',',
    t "$nl", o ';', n "sep", o '=', t "$nl", o ';']

/-- `/repo/examples/conf-edit/internal/grammar.go`, the whole file by lines. -/
def confLines : List String := [
    "// Code generated with llxgen.", "", "package internal", "", "import \"github.com/ava12/llx/grammar\"", "",
    "var confGrammar = &grammar.Grammar{", "\tTokens: []grammar.Token{",
    "\t\t{Name: \"space\", Re: \"[ \\\\t]+\", Group: 0, Flags: 68},",
    "\t\t{Name: \"comment\", Re: \"#.*?(?:\\\\n|$)\", Group: 0, Flags: 68},", "\t\t{Name: \"nl\", Re: \"\\\\n\", Group: 0, Flags: 64},",
    "\t\t{Name: \"sec-name\", Re: \"[a-zA-Z_][a-zA-Z_0-9]*(?:[.-][a-zA-Z_][a-zA-Z_0-9]*)*\", Group: 2, Flags: 64},",
    "\t\t{Name: \"name\", Re: \"[a-zA-Z_][a-zA-Z_0-9]*(?:-[a-zA-Z_][a-zA-Z_0-9]*)*\", Group: 0, Flags: 64},",
    "\t\t{Name: \"op\", Re: \"[\\\\[\\\\]=]\", Group: 0, Flags: 0},",
    "\t\t{Name: \"value\", Re: \"\\\\S[^\\\\n#]*\", Group: 1, Flags: 64},", "\t\t{Name: \"=\", Re: \"\", Group: 0, Flags: 1},",
    "\t\t{Name: \"[\", Re: \"\", Group: 0, Flags: 1},", "\t\t{Name: \"]\", Re: \"\", Group: 0, Flags: 1},", "\t},",
    "\tNodes: []grammar.Node{", "\t\t{Name: \"confGrammar\", FirstState: 0},", "\t\t{Name: \"def-section\", FirstState: 2},",
    "\t\t{Name: \"section\", FirstState: 4},", "\t\t{Name: \"entry\", FirstState: 6},", "\t\t{Name: \"sep\", FirstState: 10},",
    "\t\t{Name: \"header\", FirstState: 11},", "\t},", "\tStates: []grammar.State{", "\t\t{55, 0, 0, 0, 4}, // confGrammar(0)",
    "\t\t{35, 0, 0, 4, 6},", "\t\t{23, 0, 0, 6, 8}, // def-section(2)", "\t\t{23, 0, 0, 8, 11},",
    "\t\t{35, 0, 0, 11, 12}, // section(4)", "\t\t{23, 0, 0, 12, 15},", "\t\t{19, 0, 0, 15, 16}, // entry(6)", "\t\t{35, 0, 0, 16, 17},",
    "\t\t{71, 0, 0, 17, 20},", "\t\t{7, 0, 0, 20, 22},", "\t\t{7, 0, 0, 22, 23}, // sep(10)", "\t\t{35, 0, 0, 23, 24}, // header(11)",
    "\t\t{11, 0, 0, 24, 25},", "\t\t{35, 0, 0, 25, 26},", "\t\t{7, 0, 0, 26, 27},", "\t},", "\tMultiRules: []grammar.MultiRule{},",
    "\tRules: []grammar.Rule{", "\t\t{-1, -1, -1}, // 0(0)", "\t\t{2, 1, 1},", "\t\t{4, 1, 1},", "\t\t{8, 1, 2},",
    "\t\t{-1, -1, -1}, // 1(4)", "\t\t{8, 1, 2},", "\t\t{2, 3, 4}, // 2(6)", "\t\t{4, 3, 3},", "\t\t{-1, -1, -1}, // 3(8)",
    "\t\t{2, 3, 4},", "\t\t{4, 3, 3},", "\t\t{8, 5, 5}, // 4(11)", "\t\t{-1, -1, -1}, // 5(12)", "\t\t{2, 5, 4},", "\t\t{4, 5, 3},",
    "\t\t{4, 7, -1}, // 6(15)", "\t\t{7, 8, -1}, // 7(16)", "\t\t{-1, -1, -1}, // 8(17)", "\t\t{2, -1, -1},", "\t\t{6, 9, -1},",
    "\t\t{-1, -1, -1}, // 9(20)", "\t\t{2, -1, -1},", "\t\t{2, -1, -1}, // 10(22)", "\t\t{8, 12, -1}, // 11(23)",
    "\t\t{3, 13, -1}, // 12(24)", "\t\t{9, 14, -1}, // 13(25)", "\t\t{2, -1, -1}, // 14(26)", "\t},", "}"]

/-- `/repo/examples/style-check/internal/grammar.llx`, the whole file. -/
def styleDescription : List (Except LErr LTok) := [
    d "!side", t "$space", t "$indent", t "$comment", o ';', t "$indent", o '=', r "/\\n[ \\t]*/", o ';', t "$space", o '=',
    r "/[ \\t]+/", o ';', t "$comment", o '=', r "/\\/\\*.*?\\*\\//", o ';', t "$number", o '=', r "/\\d+/", o ';', t "$name", o '=',
    r "/[A-Za-z_][A-Za-z_0-9]*/", o ';', t "$op", o '=', r "/[{}\\[\\],;]/", o ';', n "cDataGrammar", o '=', n "var-def", o '|',
    n "type-def", o ',', o '{', n "var-def", o '|', n "type-def", o '}', o ';', n "var-def", o '=', n "type", o ',', n "name", o ',',
    o '{', n "size-def", o '}', o ',', o '{', s "','", o ',', n "name", o ',', o '{', n "size-def", o '}', o '}', o ',', s "';'", o ';',
    n "type-def", o '=', s "'typedef'", o ',', n "type", o ',', n "name", o ',', o '{', n "size-def", o '}', o ',', s "';'", o ';',
    n "type", o '=', n "simple-type", o '|', n "struct-type", o ';', n "name", o '=', t "$name", o ';', n "simple-type", o '=',
    t "$name", o ';', n "struct-type", o '=', s "'struct'", o ',', s "'{'", o ',', n "var-def", o ',', o '{', n "var-def", o '}', o ',',
    s "'}'", o ';', n "size-def", o '=', s "'['", o ',', t "$number", o ',', s "']'", o ';']

/-- `/repo/examples/style-check/internal/grammar.go`, the whole file by lines. -/
def styleLines : List String := [
    "// Code generated with llxgen.", "", "package internal", "", "import \"github.com/ava12/llx/grammar\"", "",
    "var cDataGrammar = &grammar.Grammar{", "\tTokens: []grammar.Token{",
    "\t\t{Name: \"indent\", Re: \"\\\\n[ \\\\t]*\", Group: 0, Flags: 4},",
    "\t\t{Name: \"space\", Re: \"[ \\\\t]+\", Group: 0, Flags: 4},",
    "\t\t{Name: \"comment\", Re: \"\\\\/\\\\*.*?\\\\*\\\\/\", Group: 0, Flags: 4},",
    "\t\t{Name: \"number\", Re: \"\\\\d+\", Group: 0, Flags: 0},",
    "\t\t{Name: \"name\", Re: \"[A-Za-z_][A-Za-z_0-9]*\", Group: 0, Flags: 0},",
    "\t\t{Name: \"op\", Re: \"[{}\\\\[\\\\],;]\", Group: 0, Flags: 0},", "\t\t{Name: \",\", Re: \"\", Group: 0, Flags: 1},",
    "\t\t{Name: \";\", Re: \"\", Group: 0, Flags: 1},", "\t\t{Name: \"typedef\", Re: \"\", Group: 0, Flags: 1},",
    "\t\t{Name: \"struct\", Re: \"\", Group: 0, Flags: 1},", "\t\t{Name: \"{\", Re: \"\", Group: 0, Flags: 1},",
    "\t\t{Name: \"}\", Re: \"\", Group: 0, Flags: 1},", "\t\t{Name: \"[\", Re: \"\", Group: 0, Flags: 1},",
    "\t\t{Name: \"]\", Re: \"\", Group: 0, Flags: 1},", "\t},", "\tNodes: []grammar.Node{",
    "\t\t{Name: \"cDataGrammar\", FirstState: 0},", "\t\t{Name: \"var-def\", FirstState: 2},",
    "\t\t{Name: \"type-def\", FirstState: 8},", "\t\t{Name: \"type\", FirstState: 12},", "\t\t{Name: \"name\", FirstState: 13},",
    "\t\t{Name: \"size-def\", FirstState: 14},", "\t\t{Name: \"simple-type\", FirstState: 17},",
    "\t\t{Name: \"struct-type\", FirstState: 18},", "\t},", "\tStates: []grammar.State{", "\t\t{23, 0, 0, 0, 3}, // cDataGrammar(0)",
    "\t\t{23, 0, 0, 3, 7},", "\t\t{23, 0, 0, 7, 9}, // var-def(2)", "\t\t{23, 0, 0, 9, 10},", "\t\t{39, 0, 0, 10, 13},",
    "\t\t{39, 0, 0, 13, 15},", "\t\t{23, 0, 0, 15, 16},", "\t\t{39, 0, 0, 16, 18},", "\t\t{23, 0, 0, 18, 19}, // type-def(8)",
    "\t\t{23, 0, 0, 19, 21},", "\t\t{23, 0, 0, 21, 22},", "\t\t{39, 0, 0, 22, 24},", "\t\t{23, 0, 0, 24, 26}, // type(12)",
    "\t\t{23, 0, 0, 26, 27}, // name(13)", "\t\t{39, 0, 0, 27, 28}, // size-def(14)", "\t\t{15, 0, 0, 28, 29},",
    "\t\t{39, 0, 0, 29, 30},", "\t\t{23, 0, 0, 30, 31}, // simple-type(17)", "\t\t{23, 0, 0, 31, 32}, // struct-type(18)",
    "\t\t{39, 0, 0, 32, 33},", "\t\t{23, 0, 0, 33, 35},", "\t\t{55, 0, 0, 35, 38},", "\t},", "\tMultiRules: []grammar.MultiRule{},",
    "\tRules: []grammar.Rule{", "\t\t{4, 1, 1}, // 0(0)", "\t\t{8, 1, 2},", "\t\t{9, 1, 1},", "\t\t{-1, -1, -1}, // 1(3)",
    "\t\t{4, 1, 1},", "\t\t{8, 1, 2},", "\t\t{9, 1, 1},", "\t\t{4, 3, 3}, // 2(7)", "\t\t{9, 3, 3},", "\t\t{4, 4, 4}, // 3(9)",
    "\t\t{6, 6, -1}, // 4(10)", "\t\t{7, -1, -1},", "\t\t{12, 4, 5},", "\t\t{6, 6, -1}, // 5(13)", "\t\t{7, -1, -1},",
    "\t\t{4, 7, 4}, // 6(15)", "\t\t{-1, 5, -1}, // 7(16)", "\t\t{12, 7, 5},", "\t\t{8, 9, -1}, // 8(18)", "\t\t{4, 10, 3}, // 9(19)",
    "\t\t{9, 10, 3},", "\t\t{4, 11, 4}, // 10(21)", "\t\t{7, -1, -1}, // 11(22)", "\t\t{12, 11, 5},", "\t\t{4, -1, 6}, // 12(24)",
    "\t\t{9, -1, 7},", "\t\t{4, -1, -1}, // 13(26)", "\t\t{12, 15, -1}, // 14(27)", "\t\t{3, 16, -1}, // 15(28)",
    "\t\t{13, -1, -1}, // 16(29)", "\t\t{4, -1, -1}, // 17(30)", "\t\t{9, 19, -1}, // 18(31)", "\t\t{10, 20, -1}, // 19(32)",
    "\t\t{4, 21, 1}, // 20(33)", "\t\t{9, 21, 1},", "\t\t{4, 21, 1}, // 21(35)", "\t\t{9, 21, 1},", "\t\t{11, -1, -1},", "\t},", "}"]

/-- The text consisting of lines. -/
def textOf (lines : List String) : List Nat := lines.flatMap fun l => l.toList.map Char.toNat ++ [10]

end Verif.Model.Examples
