import Verif.Spec.User

/-!
# The C grammar (gearley-example-grammars/src/c/grammar.panini) and the table of the C lexer (gearley-wasm/src/lib.rs)

Data, copied from the files by a script. The symbols are those of the grammar file in the order of their first occurrence.
`Cfg::load` (external crate) reads the file: rules `a ::= b | c;` with `()` for an empty alternative.
-/

namespace Gearley

/-- The symbols of the C grammar. -/
inductive CSym where
  | start | translation_unit | primary_expression | identifier | constant | string_literal | lparen | expression | rparen
  | postfix_expression | lbracket | rbracket | argument_expression_list_opt | dot | ptr_op | inc_op | dec_op | type_name
  | lbrace | initializer_list | rbrace | comma | argument_expression_list | assignment_expression | unary_expression
  | unary_operator | cast_expression | sizeof_ | ampersand | star | plus | minus | tilde | exclamation
  | multiplicative_expression | slash | percent | additive_expression | shift_expression | left_op | right_op
  | relational_expression | langle | rangle | le_op | ge_op | equality_expression | eq_op | ne_op | AND_expression
  | exclusive_OR_expression | xor | inclusive_OR_expression | pipe | logical_AND_expression | and_op | logical_OR_expression
  | or_op | conditional_expression | question | colon | assignment_operator | equal | mul_assign | div_assign | mod_assign
  | add_assign | sub_assign | left_assign | right_assign | and_assign | xor_assign | or_assign | error | constant_expression
  | declaration | declaration_specifiers | init_declarator_list_opt | semicolon | init_declarator_list
  | storage_class_specifier | declaration_specifiers_opt | type_specifier | type_qualifier | function_specifier
  | init_declarator | declarator | initializer | typedef | extern_ | static_ | auto | register | void | char_ | short | int
  | long | float | double | signed | unsigned | bool_ | complex | imaginary | struct_or_union_specifier | enum_specifier
  | typedef_name | struct_or_union | identifier_opt | struct_declaration_list | struct_ | union | struct_declaration
  | specifier_qualifier_list | struct_declarator_list | specifier_qualifier_list_opt | struct_declarator | declarator_opt
  | enum_ | enumerator_list | enumerator | enumeration_constant | const_ | restrict | volatile | inline | pointer_opt
  | direct_declarator | pointer | type_qualifier_list_opt | assignment_expression_opt | type_qualifier_list
  | parameter_type_list | identifier_list_opt | identifier_list | parameter_list | elipsis | parameter_declaration
  | abstract_declarator_opt | abstract_declarator | direct_abstract_declarator | direct_abstract_declarator_opt
  | parameter_type_list_opt | designation_opt | designation | designator_list | designator | statement | labeled_statement
  | compound_statement | expression_statement | selection_statement | iteration_statement | jump_statement | case | default
  | block_item_list_opt | block_item_list | block_item | expression_opt | if_ | else_ | switch | while_ | do_ | for_ | goto
  | continue_ | break_ | return_ | external_declaration | function_definition | declaration_list_opt | declaration_list
  deriving DecidableEq, Repr

namespace CSym

/-- The name of the symbol in grammar.panini. -/
def name : CSym → String
  | .start => "start"
  | .translation_unit => "translation_unit"
  | .primary_expression => "primary_expression"
  | .identifier => "identifier"
  | .constant => "constant"
  | .string_literal => "string_literal"
  | .lparen => "lparen"
  | .expression => "expression"
  | .rparen => "rparen"
  | .postfix_expression => "postfix_expression"
  | .lbracket => "lbracket"
  | .rbracket => "rbracket"
  | .argument_expression_list_opt => "argument_expression_list_opt"
  | .dot => "dot"
  | .ptr_op => "ptr_op"
  | .inc_op => "inc_op"
  | .dec_op => "dec_op"
  | .type_name => "type_name"
  | .lbrace => "lbrace"
  | .initializer_list => "initializer_list"
  | .rbrace => "rbrace"
  | .comma => "comma"
  | .argument_expression_list => "argument_expression_list"
  | .assignment_expression => "assignment_expression"
  | .unary_expression => "unary_expression"
  | .unary_operator => "unary_operator"
  | .cast_expression => "cast_expression"
  | .sizeof_ => "sizeof_"
  | .ampersand => "ampersand"
  | .star => "star"
  | .plus => "plus"
  | .minus => "minus"
  | .tilde => "tilde"
  | .exclamation => "exclamation"
  | .multiplicative_expression => "multiplicative_expression"
  | .slash => "slash"
  | .percent => "percent"
  | .additive_expression => "additive_expression"
  | .shift_expression => "shift_expression"
  | .left_op => "left_op"
  | .right_op => "right_op"
  | .relational_expression => "relational_expression"
  | .langle => "langle"
  | .rangle => "rangle"
  | .le_op => "le_op"
  | .ge_op => "ge_op"
  | .equality_expression => "equality_expression"
  | .eq_op => "eq_op"
  | .ne_op => "ne_op"
  | .AND_expression => "AND_expression"
  | .exclusive_OR_expression => "exclusive_OR_expression"
  | .xor => "xor"
  | .inclusive_OR_expression => "inclusive_OR_expression"
  | .pipe => "pipe"
  | .logical_AND_expression => "logical_AND_expression"
  | .and_op => "and_op"
  | .logical_OR_expression => "logical_OR_expression"
  | .or_op => "or_op"
  | .conditional_expression => "conditional_expression"
  | .question => "question"
  | .colon => "colon"
  | .assignment_operator => "assignment_operator"
  | .equal => "equal"
  | .mul_assign => "mul_assign"
  | .div_assign => "div_assign"
  | .mod_assign => "mod_assign"
  | .add_assign => "add_assign"
  | .sub_assign => "sub_assign"
  | .left_assign => "left_assign"
  | .right_assign => "right_assign"
  | .and_assign => "and_assign"
  | .xor_assign => "xor_assign"
  | .or_assign => "or_assign"
  | .error => "error"
  | .constant_expression => "constant_expression"
  | .declaration => "declaration"
  | .declaration_specifiers => "declaration_specifiers"
  | .init_declarator_list_opt => "init_declarator_list_opt"
  | .semicolon => "semicolon"
  | .init_declarator_list => "init_declarator_list"
  | .storage_class_specifier => "storage_class_specifier"
  | .declaration_specifiers_opt => "declaration_specifiers_opt"
  | .type_specifier => "type_specifier"
  | .type_qualifier => "type_qualifier"
  | .function_specifier => "function_specifier"
  | .init_declarator => "init_declarator"
  | .declarator => "declarator"
  | .initializer => "initializer"
  | .typedef => "typedef"
  | .extern_ => "extern_"
  | .static_ => "static_"
  | .auto => "auto"
  | .register => "register"
  | .void => "void"
  | .char_ => "char_"
  | .short => "short"
  | .int => "int"
  | .long => "long"
  | .float => "float"
  | .double => "double"
  | .signed => "signed"
  | .unsigned => "unsigned"
  | .bool_ => "bool_"
  | .complex => "complex"
  | .imaginary => "imaginary"
  | .struct_or_union_specifier => "struct_or_union_specifier"
  | .enum_specifier => "enum_specifier"
  | .typedef_name => "typedef_name"
  | .struct_or_union => "struct_or_union"
  | .identifier_opt => "identifier_opt"
  | .struct_declaration_list => "struct_declaration_list"
  | .struct_ => "struct_"
  | .union => "union"
  | .struct_declaration => "struct_declaration"
  | .specifier_qualifier_list => "specifier_qualifier_list"
  | .struct_declarator_list => "struct_declarator_list"
  | .specifier_qualifier_list_opt => "specifier_qualifier_list_opt"
  | .struct_declarator => "struct_declarator"
  | .declarator_opt => "declarator_opt"
  | .enum_ => "enum_"
  | .enumerator_list => "enumerator_list"
  | .enumerator => "enumerator"
  | .enumeration_constant => "enumeration_constant"
  | .const_ => "const_"
  | .restrict => "restrict"
  | .volatile => "volatile"
  | .inline => "inline"
  | .pointer_opt => "pointer_opt"
  | .direct_declarator => "direct_declarator"
  | .pointer => "pointer"
  | .type_qualifier_list_opt => "type_qualifier_list_opt"
  | .assignment_expression_opt => "assignment_expression_opt"
  | .type_qualifier_list => "type_qualifier_list"
  | .parameter_type_list => "parameter_type_list"
  | .identifier_list_opt => "identifier_list_opt"
  | .identifier_list => "identifier_list"
  | .parameter_list => "parameter_list"
  | .elipsis => "elipsis"
  | .parameter_declaration => "parameter_declaration"
  | .abstract_declarator_opt => "abstract_declarator_opt"
  | .abstract_declarator => "abstract_declarator"
  | .direct_abstract_declarator => "direct_abstract_declarator"
  | .direct_abstract_declarator_opt => "direct_abstract_declarator_opt"
  | .parameter_type_list_opt => "parameter_type_list_opt"
  | .designation_opt => "designation_opt"
  | .designation => "designation"
  | .designator_list => "designator_list"
  | .designator => "designator"
  | .statement => "statement"
  | .labeled_statement => "labeled_statement"
  | .compound_statement => "compound_statement"
  | .expression_statement => "expression_statement"
  | .selection_statement => "selection_statement"
  | .iteration_statement => "iteration_statement"
  | .jump_statement => "jump_statement"
  | .case => "case"
  | .default => "default"
  | .block_item_list_opt => "block_item_list_opt"
  | .block_item_list => "block_item_list"
  | .block_item => "block_item"
  | .expression_opt => "expression_opt"
  | .if_ => "if_"
  | .else_ => "else_"
  | .switch => "switch"
  | .while_ => "while_"
  | .do_ => "do_"
  | .for_ => "for_"
  | .goto => "goto"
  | .continue_ => "continue_"
  | .break_ => "break_"
  | .return_ => "return_"
  | .external_declaration => "external_declaration"
  | .function_definition => "function_definition"
  | .declaration_list_opt => "declaration_list_opt"
  | .declaration_list => "declaration_list"

/-- All symbols, in the order of their first occurrence. -/
def all : List CSym :=
  [.start, .translation_unit, .primary_expression, .identifier, .constant, .string_literal, .lparen, .expression, .rparen,
  .postfix_expression, .lbracket, .rbracket, .argument_expression_list_opt, .dot, .ptr_op, .inc_op, .dec_op, .type_name,
  .lbrace, .initializer_list, .rbrace, .comma, .argument_expression_list, .assignment_expression, .unary_expression,
  .unary_operator, .cast_expression, .sizeof_, .ampersand, .star, .plus, .minus, .tilde, .exclamation,
  .multiplicative_expression, .slash, .percent, .additive_expression, .shift_expression, .left_op, .right_op,
  .relational_expression, .langle, .rangle, .le_op, .ge_op, .equality_expression, .eq_op, .ne_op, .AND_expression,
  .exclusive_OR_expression, .xor, .inclusive_OR_expression, .pipe, .logical_AND_expression, .and_op, .logical_OR_expression,
  .or_op, .conditional_expression, .question, .colon, .assignment_operator, .equal, .mul_assign, .div_assign, .mod_assign,
  .add_assign, .sub_assign, .left_assign, .right_assign, .and_assign, .xor_assign, .or_assign, .error, .constant_expression,
  .declaration, .declaration_specifiers, .init_declarator_list_opt, .semicolon, .init_declarator_list,
  .storage_class_specifier, .declaration_specifiers_opt, .type_specifier, .type_qualifier, .function_specifier,
  .init_declarator, .declarator, .initializer, .typedef, .extern_, .static_, .auto, .register, .void, .char_, .short, .int,
  .long, .float, .double, .signed, .unsigned, .bool_, .complex, .imaginary, .struct_or_union_specifier, .enum_specifier,
  .typedef_name, .struct_or_union, .identifier_opt, .struct_declaration_list, .struct_, .union, .struct_declaration,
  .specifier_qualifier_list, .struct_declarator_list, .specifier_qualifier_list_opt, .struct_declarator, .declarator_opt,
  .enum_, .enumerator_list, .enumerator, .enumeration_constant, .const_, .restrict, .volatile, .inline, .pointer_opt,
  .direct_declarator, .pointer, .type_qualifier_list_opt, .assignment_expression_opt, .type_qualifier_list,
  .parameter_type_list, .identifier_list_opt, .identifier_list, .parameter_list, .elipsis, .parameter_declaration,
  .abstract_declarator_opt, .abstract_declarator, .direct_abstract_declarator, .direct_abstract_declarator_opt,
  .parameter_type_list_opt, .designation_opt, .designation, .designator_list, .designator, .statement, .labeled_statement,
  .compound_statement, .expression_statement, .selection_statement, .iteration_statement, .jump_statement, .case, .default,
  .block_item_list_opt, .block_item_list, .block_item, .expression_opt, .if_, .else_, .switch, .while_, .do_, .for_, .goto,
  .continue_, .break_, .return_, .external_declaration, .function_definition, .declaration_list_opt, .declaration_list]

end CSym

/-- The rules of the C grammar (grammar.panini:1-366). The comments are line numbers. -/
def cGrammar : List (CSym × List CSym) := [
  -- 1
  (.start, [.translation_unit]),
  -- 2
  (.primary_expression, [.identifier]),
  (.primary_expression, [.constant]),
  (.primary_expression, [.string_literal]),
  (.primary_expression, [.lparen, .expression, .rparen]),
  -- 7
  (.postfix_expression, [.primary_expression]),
  (.postfix_expression, [.postfix_expression, .lbracket, .expression, .rbracket]),
  (.postfix_expression, [.postfix_expression, .lparen, .argument_expression_list_opt, .rparen]),
  (.postfix_expression, [.postfix_expression, .dot, .identifier]),
  (.postfix_expression, [.postfix_expression, .ptr_op, .identifier]),
  (.postfix_expression, [.postfix_expression, .inc_op]),
  (.postfix_expression, [.postfix_expression, .dec_op]),
  (.postfix_expression, [.lparen, .type_name, .rparen, .lbrace, .initializer_list, .rbrace]),
  (.postfix_expression, [.lparen, .type_name, .rparen, .lbrace, .initializer_list, .comma, .rbrace]),
  -- 17
  (.argument_expression_list_opt, []),
  (.argument_expression_list_opt, [.argument_expression_list]),
  -- 18
  (.argument_expression_list, [.assignment_expression]),
  (.argument_expression_list, [.argument_expression_list, .comma, .assignment_expression]),
  -- 19
  (.unary_expression, [.postfix_expression]),
  (.unary_expression, [.inc_op, .unary_expression]),
  (.unary_expression, [.dec_op, .unary_expression]),
  (.unary_expression, [.unary_operator, .cast_expression]),
  (.unary_expression, [.sizeof_, .unary_expression]),
  (.unary_expression, [.sizeof_, .lparen, .type_name, .rparen]),
  -- 26
  (.unary_operator, [.ampersand]),
  (.unary_operator, [.star]),
  (.unary_operator, [.plus]),
  (.unary_operator, [.minus]),
  (.unary_operator, [.tilde]),
  (.unary_operator, [.exclamation]),
  -- 33
  (.cast_expression, [.unary_expression]),
  (.cast_expression, [.lparen, .type_name, .rparen, .cast_expression]),
  -- 35
  (.multiplicative_expression, [.cast_expression]),
  (.multiplicative_expression, [.multiplicative_expression, .star, .cast_expression]),
  (.multiplicative_expression, [.multiplicative_expression, .slash, .cast_expression]),
  (.multiplicative_expression, [.multiplicative_expression, .percent, .cast_expression]),
  -- 40
  (.additive_expression, [.multiplicative_expression]),
  (.additive_expression, [.additive_expression, .plus, .multiplicative_expression]),
  (.additive_expression, [.additive_expression, .minus, .multiplicative_expression]),
  -- 44
  (.shift_expression, [.additive_expression]),
  (.shift_expression, [.shift_expression, .left_op, .additive_expression]),
  (.shift_expression, [.shift_expression, .right_op, .additive_expression]),
  -- 48
  (.relational_expression, [.shift_expression]),
  (.relational_expression, [.relational_expression, .langle, .shift_expression]),
  (.relational_expression, [.relational_expression, .rangle, .shift_expression]),
  (.relational_expression, [.relational_expression, .le_op, .shift_expression]),
  (.relational_expression, [.relational_expression, .ge_op, .shift_expression]),
  -- 54
  (.equality_expression, [.relational_expression]),
  (.equality_expression, [.equality_expression, .eq_op, .relational_expression]),
  (.equality_expression, [.equality_expression, .ne_op, .relational_expression]),
  -- 58
  (.AND_expression, [.equality_expression]),
  (.AND_expression, [.AND_expression, .ampersand, .equality_expression]),
  -- 61
  (.exclusive_OR_expression, [.AND_expression]),
  (.exclusive_OR_expression, [.exclusive_OR_expression, .xor, .AND_expression]),
  -- 64
  (.inclusive_OR_expression, [.exclusive_OR_expression]),
  (.inclusive_OR_expression, [.inclusive_OR_expression, .pipe, .exclusive_OR_expression]),
  -- 67
  (.logical_AND_expression, [.inclusive_OR_expression]),
  (.logical_AND_expression, [.logical_AND_expression, .and_op, .inclusive_OR_expression]),
  -- 70
  (.logical_OR_expression, [.logical_AND_expression]),
  (.logical_OR_expression, [.logical_OR_expression, .or_op, .logical_AND_expression]),
  -- 73
  (.conditional_expression, [.logical_OR_expression]),
  (.conditional_expression, [.logical_OR_expression, .question, .expression, .colon, .conditional_expression]),
  -- 80
  (.assignment_expression, [.conditional_expression]),
  (.assignment_expression, [.unary_expression, .assignment_operator, .assignment_expression]),
  -- 83
  (.assignment_operator, [.equal]),
  (.assignment_operator, [.mul_assign]),
  (.assignment_operator, [.div_assign]),
  (.assignment_operator, [.mod_assign]),
  (.assignment_operator, [.add_assign]),
  (.assignment_operator, [.sub_assign]),
  (.assignment_operator, [.left_assign]),
  (.assignment_operator, [.right_assign]),
  (.assignment_operator, [.and_assign]),
  (.assignment_operator, [.xor_assign]),
  (.assignment_operator, [.or_assign]),
  -- 95
  (.expression, [.assignment_expression]),
  (.expression, [.expression, .comma, .assignment_expression]),
  (.expression, [.error]),
  -- 99
  (.constant_expression, [.conditional_expression]),
  -- 102
  (.declaration, [.declaration_specifiers, .init_declarator_list_opt, .semicolon]),
  (.declaration, [.error]),
  -- 105
  (.init_declarator_list_opt, []),
  (.init_declarator_list_opt, [.init_declarator_list]),
  -- 108
  (.declaration_specifiers, [.storage_class_specifier, .declaration_specifiers_opt]),
  (.declaration_specifiers, [.type_specifier, .declaration_specifiers_opt]),
  (.declaration_specifiers, [.type_qualifier, .declaration_specifiers_opt]),
  (.declaration_specifiers, [.function_specifier, .declaration_specifiers_opt]),
  -- 113
  (.declaration_specifiers_opt, []),
  (.declaration_specifiers_opt, [.declaration_specifiers]),
  -- 116
  (.init_declarator_list, [.init_declarator]),
  (.init_declarator_list, [.init_declarator_list, .comma, .init_declarator]),
  -- 119
  (.init_declarator, [.declarator]),
  (.init_declarator, [.declarator, .equal, .initializer]),
  -- 122
  (.storage_class_specifier, [.typedef]),
  (.storage_class_specifier, [.extern_]),
  (.storage_class_specifier, [.static_]),
  (.storage_class_specifier, [.auto]),
  (.storage_class_specifier, [.register]),
  -- 128
  (.type_specifier, [.void]),
  (.type_specifier, [.char_]),
  (.type_specifier, [.short]),
  (.type_specifier, [.int]),
  (.type_specifier, [.long]),
  (.type_specifier, [.float]),
  (.type_specifier, [.double]),
  (.type_specifier, [.signed]),
  (.type_specifier, [.unsigned]),
  (.type_specifier, [.bool_]),
  (.type_specifier, [.complex]),
  (.type_specifier, [.imaginary]),
  (.type_specifier, [.struct_or_union_specifier]),
  (.type_specifier, [.enum_specifier]),
  (.type_specifier, [.typedef_name]),
  -- 144
  (.struct_or_union_specifier, [.struct_or_union, .identifier_opt, .lbrace, .struct_declaration_list, .rbrace]),
  (.struct_or_union_specifier, [.struct_or_union, .identifier]),
  -- 147
  (.identifier_opt, []),
  (.identifier_opt, [.identifier]),
  -- 148
  (.struct_or_union, [.struct_]),
  (.struct_or_union, [.union]),
  -- 149
  (.struct_declaration_list, [.struct_declaration]),
  (.struct_declaration_list, [.struct_declaration_list, .struct_declaration]),
  -- 152
  (.struct_declaration, [.specifier_qualifier_list, .struct_declarator_list, .semicolon]),
  -- 156
  (.specifier_qualifier_list, [.type_specifier, .specifier_qualifier_list_opt]),
  (.specifier_qualifier_list, [.type_qualifier, .specifier_qualifier_list_opt]),
  -- 159
  (.specifier_qualifier_list_opt, []),
  (.specifier_qualifier_list_opt, [.specifier_qualifier_list]),
  -- 162
  (.struct_declarator_list, [.struct_declarator]),
  (.struct_declarator_list, [.struct_declarator_list, .comma, .struct_declarator]),
  -- 165
  (.struct_declarator, [.declarator]),
  (.struct_declarator, [.declarator_opt, .colon, .constant_expression]),
  -- 169
  (.declarator_opt, []),
  (.declarator_opt, [.declarator]),
  -- 170
  (.enum_specifier, [.enum_, .identifier_opt, .lbrace, .enumerator_list, .rbrace]),
  (.enum_specifier, [.enum_, .identifier_opt, .lbrace, .enumerator_list, .comma, .rbrace]),
  (.enum_specifier, [.enum_, .identifier]),
  -- 179
  (.enumerator_list, [.enumerator]),
  (.enumerator_list, [.enumerator_list, .comma, .enumerator]),
  -- 181
  (.enumerator, [.enumeration_constant]),
  (.enumerator, [.enumeration_constant, .equal, .constant_expression]),
  -- 185
  (.type_qualifier, [.const_]),
  (.type_qualifier, [.restrict]),
  (.type_qualifier, [.volatile]),
  -- 189
  (.function_specifier, [.inline]),
  -- 190
  (.declarator, [.pointer_opt, .direct_declarator]),
  -- 192
  (.pointer_opt, []),
  (.pointer_opt, [.pointer]),
  -- 193
  (.direct_declarator, [.identifier]),
  (.direct_declarator, [.lparen, .declarator, .rparen]),
  (.direct_declarator, [.direct_declarator, .lbracket, .type_qualifier_list_opt, .assignment_expression_opt, .rbracket]),
  (.direct_declarator, [.direct_declarator, .lbracket, .static_, .type_qualifier_list_opt, .assignment_expression, .rbracket]),
  (.direct_declarator, [.direct_declarator, .lbracket, .type_qualifier_list, .static_, .assignment_expression, .rbracket]),
  (.direct_declarator, [.direct_declarator, .lbracket, .type_qualifier_list_opt, .star, .rbracket]),
  (.direct_declarator, [.direct_declarator, .lparen, .parameter_type_list, .rparen]),
  (.direct_declarator, [.direct_declarator, .lparen, .identifier_list_opt, .rparen]),
  -- 224
  (.type_qualifier_list_opt, []),
  (.type_qualifier_list_opt, [.type_qualifier_list]),
  -- 227
  (.identifier_list_opt, []),
  (.identifier_list_opt, [.identifier_list]),
  -- 230
  (.pointer, [.star, .type_qualifier_list_opt]),
  (.pointer, [.star, .type_qualifier_list_opt, .pointer]),
  -- 233
  (.type_qualifier_list, [.type_qualifier]),
  (.type_qualifier_list, [.type_qualifier_list, .type_qualifier]),
  -- 236
  (.parameter_type_list, [.parameter_list]),
  (.parameter_type_list, [.parameter_list, .comma, .elipsis]),
  -- 239
  (.parameter_list, [.parameter_declaration]),
  (.parameter_list, [.parameter_list, .comma, .parameter_declaration]),
  -- 242
  (.parameter_declaration, [.declaration_specifiers, .declarator]),
  (.parameter_declaration, [.declaration_specifiers, .abstract_declarator_opt]),
  -- 245
  (.abstract_declarator_opt, []),
  (.abstract_declarator_opt, [.abstract_declarator]),
  -- 248
  (.identifier_list, [.identifier]),
  (.identifier_list, [.identifier_list, .comma, .identifier]),
  -- 251
  (.type_name, [.specifier_qualifier_list, .abstract_declarator_opt]),
  -- 253
  (.abstract_declarator, [.pointer]),
  (.abstract_declarator, [.pointer_opt, .direct_abstract_declarator]),
  -- 256
  (.direct_abstract_declarator, [.lparen, .abstract_declarator, .rparen]),
  (.direct_abstract_declarator, [.direct_abstract_declarator_opt, .lbracket, .assignment_expression_opt, .rbracket]),
  (.direct_abstract_declarator, [.direct_abstract_declarator_opt, .lbracket, .star, .rbracket]),
  (.direct_abstract_declarator, [.direct_abstract_declarator_opt, .lparen, .parameter_type_list_opt, .rparen]),
  -- 268
  (.direct_abstract_declarator_opt, []),
  (.direct_abstract_declarator_opt, [.direct_abstract_declarator]),
  -- 271
  (.assignment_expression_opt, []),
  (.assignment_expression_opt, [.assignment_expression]),
  -- 274
  (.parameter_type_list_opt, []),
  (.parameter_type_list_opt, [.parameter_type_list]),
  -- 277
  (.typedef_name, [.identifier]),
  -- 278
  (.initializer, [.assignment_expression]),
  (.initializer, [.lbrace, .initializer_list, .rbrace]),
  (.initializer, [.lbrace, .initializer_list, .comma, .rbrace]),
  -- 282
  (.initializer_list, [.designation_opt, .initializer]),
  (.initializer_list, [.initializer_list, .comma, .designation_opt, .initializer]),
  -- 285
  (.designation_opt, []),
  (.designation_opt, [.designation]),
  -- 286
  (.designation, [.designator_list, .equal]),
  -- 287
  (.designator_list, [.designator]),
  (.designator_list, [.designator_list, .designator]),
  -- 290
  (.designator, [.rbracket, .constant_expression, .rbracket]),
  (.designator, [.dot, .identifier]),
  -- 293
  (.statement, [.labeled_statement]),
  (.statement, [.compound_statement]),
  (.statement, [.expression_statement]),
  (.statement, [.selection_statement]),
  (.statement, [.iteration_statement]),
  (.statement, [.jump_statement]),
  (.statement, [.error]),
  -- 301
  (.labeled_statement, [.identifier, .colon, .statement]),
  (.labeled_statement, [.case, .constant_expression, .colon, .statement]),
  (.labeled_statement, [.default, .colon, .statement]),
  -- 305
  (.compound_statement, [.lbrace, .block_item_list_opt, .rbrace]),
  -- 307
  (.block_item_list_opt, []),
  (.block_item_list_opt, [.block_item_list]),
  -- 310
  (.block_item_list, [.block_item]),
  (.block_item_list, [.block_item_list, .block_item]),
  -- 313
  (.block_item, [.declaration]),
  (.block_item, [.statement]),
  -- 314
  (.expression_statement, [.expression_opt, .semicolon]),
  -- 316
  (.expression_opt, []),
  (.expression_opt, [.expression]),
  -- 317
  (.selection_statement, [.if_, .lparen, .expression, .rparen, .statement]),
  (.selection_statement, [.if_, .lparen, .expression, .rparen, .statement, .else_, .statement]),
  (.selection_statement, [.switch, .lparen, .expression, .rparen, .statement]),
  -- 321
  (.iteration_statement, [.while_, .lparen, .expression, .rparen, .statement]),
  (.iteration_statement, [.do_, .statement, .while_, .lparen, .expression, .rparen, .semicolon]),
  (.iteration_statement, [.for_, .lparen, .expression_opt, .semicolon, .expression_opt, .semicolon, .expression_opt, .rparen, .statement]),
  (.iteration_statement, [.for_, .lparen, .declaration, .expression_opt, .semicolon, .expression_opt, .rparen, .statement]),
  -- 344
  (.jump_statement, [.goto, .identifier, .semicolon]),
  (.jump_statement, [.continue_, .semicolon]),
  (.jump_statement, [.break_, .semicolon]),
  (.jump_statement, [.return_, .expression_opt, .semicolon]),
  -- 349
  (.translation_unit, [.external_declaration]),
  (.translation_unit, [.translation_unit, .external_declaration]),
  -- 352
  (.external_declaration, [.function_definition]),
  (.external_declaration, [.declaration]),
  -- 355
  (.function_definition, [.declaration_specifiers, .declarator, .declaration_list_opt, .compound_statement]),
  -- 360
  (.declaration_list_opt, []),
  (.declaration_list_opt, [.declaration_list]),
  -- 363
  (.declaration_list, [.declaration]),
  (.declaration_list, [.declaration_list, .declaration]),
  -- 366
  (.enumeration_constant, [.identifier])]

/-- The number of a symbol. -/
def CSym.num (s : CSym) : Nat := s.ctorIdx

/-- The rules with numbers for symbols. -/
def cRules : Spec.URules := cGrammar.map fun r => (r.1.num, r.2.map CSym.num)

/-- The tokens of crate `c_lexer_logos` that gearley-wasm/src/lib.rs:112-214 names; `other` stands for all others (`AUTO`,
`ALIGNAS`, `ALIGNOF`, `ATOMIC`, `GENERIC`, `NORETURN`, `StaticAssert`, `ThreadLocal`). The text of identifiers, numbers and
strings is left out. -/
inductive CToken where
  | LBrace | RBrace | LParen | RParen | LBracket | RBracket | Semicolon | Assign | Lt | Gt | Minus | Tilde | Exclamation
  | Plus | Multi | Slash | Colon | QuestionMark | Comma | Dot | SingleAnd | InclusiveOr | ExclusiveOr | Mod | Identifier
  | NumericLiteral | StringLiteral | FuncName | SIZEOF | PtrOp | IncOp | DecOp | LeftOp | RightOp | LeOp | GeOp | EqOp
  | NeOp | AndOp | OrOp | MulAssign | DivAssign | ModAssign | AddAssign | SubAssign | LeftAssign | RightAssign | AndAssign
  | XorAssign | OrAssign | TypedefName | ELLIPSIS | EnumerationConstant | LineTerminator | EOF | TYPEDEF | EXTERN | STATIC
  | REGISTER | INLINE | CONST | RESTRICT | VOLATILE | BOOL | CHAR | SHORT | INT | LONG | SIGNED | UNSIGNED | FLOAT | DOUBLE
  | VOID | COMPLEX | IMAGINARY | STRUCT | UNION | ENUM | CASE | DEFAULT | IF | ELSE | SWITCH | WHILE | DO | FOR | GOTO
  | CONTINUE | BREAK | RETURN | other
  deriving DecidableEq, Repr

/-- The names of the tokens (gearley-wasm/src/lib.rs:112-214); `None` are dropped. -/
def cTokenName : CToken → Option String
  | .LBrace => some "lbrace"
  | .RBrace => some "rbrace"
  | .LParen => some "lparen"
  | .RParen => some "rparen"
  | .LBracket => some "lbracket"
  | .RBracket => some "rbracket"
  | .Semicolon => some "semicolon"
  | .Assign => some "equal"
  | .Lt => some "langle"
  | .Gt => some "rangle"
  | .Minus => some "minus"
  | .Tilde => some "tilde"
  | .Exclamation => some "exclamation"
  | .Plus => some "plus"
  | .Multi => some "star"
  | .Slash => some "slash"
  | .Colon => some "colon"
  | .QuestionMark => some "question"
  | .Comma => some "comma"
  | .Dot => some "dot"
  | .SingleAnd => some "ampersand"
  | .InclusiveOr => some "pipe"
  | .ExclusiveOr => some "xor"
  | .Mod => some "percent"
  | .Identifier => some "identifier"
  | .NumericLiteral => some "constant"
  | .StringLiteral => some "string_literal"
  | .FuncName => none
  | .SIZEOF => some "sizeof_"
  | .PtrOp => some "ptr_op"
  | .IncOp => some "inc_op"
  | .DecOp => some "dec_op"
  | .LeftOp => some "left_op"
  | .RightOp => some "right_op"
  | .LeOp => some "le_op"
  | .GeOp => some "ge_op"
  | .EqOp => some "eq_op"
  | .NeOp => some "ne_op"
  | .AndOp => some "and_op"
  | .OrOp => some "or_op"
  | .MulAssign => some "mul_assign"
  | .DivAssign => some "div_assign"
  | .ModAssign => some "mod_assign"
  | .AddAssign => some "add_assign"
  | .SubAssign => some "sub_assign"
  | .LeftAssign => some "left_assign"
  | .RightAssign => some "right_assign"
  | .AndAssign => some "and_assign"
  | .XorAssign => some "xor_assign"
  | .OrAssign => some "or_assign"
  | .TypedefName => some "identifier"
  | .ELLIPSIS => some "elipsis"
  | .EnumerationConstant => none
  | .LineTerminator => none
  | .EOF => none
  | .TYPEDEF => some "typedef"
  | .EXTERN => some "extern_"
  | .STATIC => some "static_"
  | .REGISTER => some "register"
  | .INLINE => some "inline"
  | .CONST => some "const_"
  | .RESTRICT => some "restrict"
  | .VOLATILE => some "volatile"
  | .BOOL => some "bool_"
  | .CHAR => some "char_"
  | .SHORT => some "short"
  | .INT => some "int"
  | .LONG => some "long"
  | .SIGNED => some "signed"
  | .UNSIGNED => some "unsigned"
  | .FLOAT => some "float"
  | .DOUBLE => some "double"
  | .VOID => some "void"
  | .COMPLEX => some "complex"
  | .IMAGINARY => some "imaginary"
  | .STRUCT => some "struct_"
  | .UNION => some "union"
  | .ENUM => some "enum_"
  | .CASE => some "case"
  | .DEFAULT => some "default"
  | .IF => some "if_"
  | .ELSE => some "else_"
  | .SWITCH => some "switch"
  | .WHILE => some "while_"
  | .DO => some "do_"
  | .FOR => some "for_"
  | .GOTO => some "goto"
  | .CONTINUE => some "continue_"
  | .BREAK => some "break_"
  | .RETURN => some "return_"
  | .other => none

/-- `c_lexer` (gearley-wasm/src/lib.rs:105-217) after the lexer of crate `c_lexer_logos`. -/
def cWords (tokens : List CToken) : List String := tokens.filterMap cTokenName

end Gearley
